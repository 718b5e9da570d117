import Mathlib.Data.List.Sort
import Verif.Model.Bernstein
/-!
# Model of `AnsatzSpace/Glue.hpp`

An entry of the edge list is `(patch 1, patch 2 or -1, edge of patch 1, edge of patch 2 or -1)`.  Degrees of freedom
and array indices are natural numbers once they are used as indices; a negative or too large index, a failed `assert`
and access to an empty vector are `none`.  `already_stored_in[d] == -1` is `none`.
-/

namespace Bembel
namespace Glue

open Basis

/-- An entry of `edges_`. -/
abbrev Edge := Int × Int × Int × Int

/-- `dofIdentification`, Glue.hpp l.42-45. -/
structure Ident where
  dofs : List Nat
  coef : Int
deriving DecidableEq, Repr

/-- `getEdgeDofIndices`, Glue.hpp l.249-299; `none` = failed `assert`. -/
def getEdgeDofIndices (edgeCase : Int) (dimX dimY : Nat) (shift : Int) : Option (List Int) :=
  if edgeCase = 0 then
    if dimX ≤ dimY then some ((List.range dimX).map fun (i : Nat) => (i : Int) + shift) else none
  else if edgeCase = 1 then
    if dimY ≤ dimX then some ((List.range dimY).map fun (i : Nat) => (dimX : Int) * (i + 1) - 1 + shift) else none
  else if edgeCase = 2 then
    if dimX ≤ dimY then some ((List.range dimX).map fun (i : Nat) => (dimX : Int) * ((dimY : Int) - 1) + i + shift) else none
  else if edgeCase = 3 then
    if dimY ≤ dimX then some ((List.range dimY).map fun (i : Nat) => (dimX : Int) * i + shift) else none
  else some []

/-- Glue.hpp l.303-305. -/
def edgeIsForwardParametrized (e : Int) : Bool := e = 0 || e = 1

/-- Glue.hpp l.306-308. -/
def edgeIsBackwardsParametrized (e : Int) : Bool := !edgeIsForwardParametrized e

/-- Glue.hpp l.309-311. -/
def normalComponentIsInwardDirected (e : Int) : Bool := e = 0 || e = 3

/-- Glue.hpp l.312-314. -/
def normalComponentIsOutwardDirected (e : Int) : Bool := !normalComponentIsInwardDirected e

/-- Glue.hpp l.316-323. -/
def reverseParametrized (e : Edge) : Bool :=
  (edgeIsForwardParametrized e.2.2.1 && edgeIsForwardParametrized e.2.2.2) ||
    (edgeIsBackwardsParametrized e.2.2.1 && edgeIsBackwardsParametrized e.2.2.2)

/-- Glue.hpp l.325-332. -/
def glueCoefficientDivergenceConforming (e : Edge) : Int :=
  if (normalComponentIsInwardDirected e.2.2.1 && normalComponentIsInwardDirected e.2.2.2) ||
    (normalComponentIsOutwardDirected e.2.2.1 && normalComponentIsOutwardDirected e.2.2.2) then -1 else 1

/-- Glue.hpp l.333-335. -/
def edgeToBeGluedInFirstComp (e : Int) : Bool := if e = 0 ∨ e = 2 then false else true

/-- The pairs `(small_dof, large_dof)` of one edge, Glue.hpp l.391-399 and l.562-568: `cnt` is the loop bound,
`rev` is `needReversion`. -/
def zipEdge (cnt : Nat) (rev : Bool) (d1 d2 : List Int) : Option (List (Nat × Nat)) :=
  (List.range cnt).mapM fun i => do
    let j := if rev then cnt - 1 - i else i
    let a ← d1[i]?
    let b ← d2[j]?
    if a = b ∨ a < 0 ∨ b < 0 then none else some (min a.toNat b.toNat, max a.toNat b.toNat)

/-! ## Continuous spaces -/

/-- `one_d_dim`, Glue.hpp l.367-369. -/
def oneDDim (p rep M : Nat) : Nat := p + 1 + rep * (2 ^ M - 1)

/-- The pairs of one edge in the continuous case, Glue.hpp l.377-399. -/
def edgePairsCont (n : Nat) (e : Edge) : Option (List (Nat × Nat)) := do
  let perPatch : Int := (n * n : Nat)
  let d1 ← getEdgeDofIndices e.2.2.1 n n (e.1 * perPatch)
  let d2 ← getEdgeDofIndices e.2.2.2 n n (e.2.1 * perPatch)
  if e.2.1 > -1 ∧ e.1 > -1 then zipEdge n (reverseParametrized e) d1 d2 else some []

/-- `out` and `already_stored_in`; `d_count` always equals `out.size()`. -/
structure Store where
  out : List Ident
  stored : Nat → Option Nat

/-- Loop of the merge, Glue.hpp l.423-431: `dfs` ranges over a copy of the larger set. -/
def mergeStep (ss : Nat) (st : Store) (d : Nat) : Option Store := do
  let s ← st.out[ss]?
  if d ∈ s.dofs then none
  else some ⟨st.out.set ss ⟨s.dofs ++ [d], s.coef⟩, upd st.stored d (some ss)⟩

/-- Merge of two sets, Glue.hpp l.413-435. -/
def mergeSets (st : Store) (ss ls : Nat) : Option Store := do
  let l ← st.out[ls]?
  let st ← l.dofs.foldlM (mergeStep ss) st
  some ⟨st.out.set ls ⟨[], 0⟩, st.stored⟩

/-- Append a dof to an existing set, Glue.hpp l.410-411 and l.442-443. -/
def pushDof (st : Store) (k d : Nat) : Option Store := do
  let s ← st.out[k]?
  some ⟨st.out.set k ⟨s.dofs ++ [d], s.coef⟩, upd st.stored d (some k)⟩

/-- Bookkeeping for one pair, Glue.hpp l.405-479.  The inner `else` of l.444-468 is unreachable, since
`already_stored_in[small_dof]` is -1 there. -/
def identStep (pre : Nat) (st : Store) (p : Nat × Nat) : Option Store :=
  if pre ≤ p.1 ∨ pre ≤ p.2 then none
  else
    match st.stored p.1, st.stored p.2 with
    | some k, none => pushDof st k p.2
    | some k, some m => if k = m then some st else mergeSets st (min k m) (max k m)
    | none, some m => pushDof st m p.1
    | none, none => some ⟨st.out ++ [⟨[p.1, p.2], 1⟩],
        upd (upd st.stored p.1 (some st.out.length)) p.2 (some st.out.length)⟩

/-- The loop over edges and dofs before the clean-up, Glue.hpp l.372-482. -/
def identifyCont (n pre : Nat) (edges : List Edge) : Option Store :=
  edges.foldlM (fun st e => do
    let ps ← edgePairsCont n e
    ps.foldlM (identStep pre) st) ⟨[], fun _ => none⟩

/-- The clean-up loop, Glue.hpp l.485-489: after `erase(x)` the iterator `x` refers to the next element and is then
incremented; if the erased element was the last one, `x` is incremented beyond `end()`: `none`. -/
def cleanup : List Ident → Option (List Ident)
  | [] => some []
  | d :: rest =>
    if d.dofs = [] then
      match rest with
      | [] => none
      | r :: rest => (cleanup rest).map (r :: ·)
    else (cleanup rest).map (d :: ·)

/-- `makeIdentification` for continuous spaces, Glue.hpp l.362-491; `p` = polynomial degree, `pre` = number of dofs
after the projector. -/
def makeIdentificationCont (p rep M pre : Nat) (edges : List Edge) : Option (List Ident) :=
  if p < 1 then none
  else do
    let st ← identifyCont (oneDDim p rep M) pre edges
    cleanup st.out

/-! ## Divergence conforming spaces -/

/-- The identifications of one edge, Glue.hpp l.525-572; `P` = number of patches. -/
def edgeIdentsDiv (small P : Nat) (e : Edge) : Option (List Ident) :=
  if ¬ (e.1 ≤ e.2.1 ∨ e.2.1 = -1) then none
  else do
    let large := small + 1
    let perComp : Int := (small * large : Nat)
    let f1 := edgeToBeGluedInFirstComp e.2.2.1
    let f2 := edgeToBeGluedInFirstComp e.2.2.2
    let shift1 := e.1 * perComp + (if f1 then 0 else perComp * P)
    let shift2 := e.2.1 * perComp + (if f2 then 0 else perComp * P)
    let d1 ← getEdgeDofIndices e.2.2.1 (if f1 then large else small) (if f1 then small else large) shift1
    let d2 ← getEdgeDofIndices e.2.2.2 (if f2 then large else small) (if f2 then small else large) shift2
    if ¬ (d1.length = d2.length ∨ e.2.1 = -1) then none
    else if e.2.1 > -1 ∧ e.1 > -1 then do
      let ps ← zipEdge d1.length (reverseParametrized e) d1 d2
      some (ps.map fun q => ⟨[q.1, q.2], glueCoefficientDivergenceConforming e⟩)
    else some []

/-- `makeIdentification` for divergence conforming spaces, Glue.hpp l.503-576 (including the size check l.516-520). -/
def makeIdentificationDiv (p rep M P pre : Nat) (edges : List Edge) : Option (List Ident) :=
  let small := p + rep * (2 ^ M - 1)
  if small * (small + 1) ≠ pre / (P * 2) then none
  else edges.foldlM (fun out e => do
    let l ← edgeIdentsDiv small P e
    some (out ++ l)) []

/-! ## The glue matrix -/

/-- Filling `dof_is_master`, `dof_is_slave`, Glue.hpp l.168-179; the set is sorted in a copy. -/
def markStep (pre : Nat) (st : (Nat → Bool) × (Nat → Bool) × Nat) (d : Ident) :
    Option ((Nat → Bool) × (Nat → Bool) × Nat) :=
  match d.dofs.insertionSort (· ≤ ·) with
  | [] => none
  | m :: rest =>
    if pre ≤ m ∨ ∃ r ∈ rest, pre ≤ r then none
    else some (upd st.1 m true, rest.foldl (fun f r => upd f r true) st.2.1, st.2.2 + rest.length)

/-- The `while` loop, Glue.hpp l.197: reads `dof_is_slave` before checking the bound. -/
def skipLoop (slave : Nat → Bool) (pre : Nat) : Nat → Nat → Option Nat
  | 0, _ => none
  | fuel + 1, x =>
    if x < pre then (if slave x then skipLoop slave pre fuel (x + 1) else some x)
    else none

/-- State of the main loop: triplets, `skip`, `master_index`. -/
structure AsmState where
  trips : List (Nat × Nat × Int)
  skip : Nat
  mi : Nat

/-- Body of the main loop, Glue.hpp l.195-215. -/
def asmStep (master slave : Nat → Bool) (pre : Nat) (ids : List Ident) (st : AsmState) (i : Nat) : Option AsmState := do
  let x ← skipLoop slave pre (pre + 1) (i + st.skip)
  let trips := st.trips ++ [(x, i, (1 : Int))]
  if master x && slave x then none
  else if master x then do
    let d ← ids[st.mi]?
    if d.dofs.head? ≠ some x then none
    else some ⟨trips ++ d.dofs.tail.map (fun r => (r, i, d.coef)), x - i, st.mi + 1⟩
  else some ⟨trips, x - i, st.mi⟩

/-- `assembleGlueMatrix`, Glue.hpp l.153-222: number of columns and triplets.  `std::sort` by the first dof is an
insertion sort here (the first dofs are different, so every sorting algorithm gives the same list). -/
def assembleGlueMatrix (pre : Nat) (ids : List Ident) : Option (Nat × List (Nat × Nat × Int)) := do
  let marks ← ids.foldlM (markStep pre) ((fun _ => false), (fun _ => false), 0)
  let sorted := ids.insertionSort fun a b => a.dofs.head?.getD 0 ≤ b.dofs.head?.getD 0
  if pre < marks.2.2 then none
  else do
    let post := pre - marks.2.2
    let st ← (List.range post).foldlM (asmStep marks.1 marks.2.1 pre sorted) ⟨[], 0, 0⟩
    if st.trips.length ≠ pre then none
    else some (post, st.trips)

end Glue
end Bembel
