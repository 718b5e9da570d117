import Verif.Model.BlockTreeHandle
/-!
# Specification: block cluster trees as values

Every variable holds its own parameters and its own tree with its own leaves.  The flag `shared` says that the parameter object may belong to a
second variable as well (after copying or moving): then nothing is promised about building the tree again, unless the parameters are
set anew.  Nothing is promised about the tree of a variable that was moved from, about copying or moving variables without a tree or
with a tree whose mesh is gone, and about building a tree a second time if the mesh of the first is gone.
-/

namespace Bembel.Spec.BlockTree
open Bembel.BlockTree Bembel.BlockCluster

variable {K E C : Type} [NormedAddCommGroup E]

/-- Value of a variable: parameters, and the tree: number of the mesh, block cluster tree, values of the leaves in the order of the tree. -/
structure Val (C : Type) where
  params : Option Params
  shared : Bool
  tree : Option (Nat × BTree × List C)

/-- Meshes and variables. -/
structure Vals (K E C : Type) where
  meshes : Nat → Option (MeshData K E × Bool)
  vars : Nat → Option (Val C)

/-- Nothing. -/
def Vals.empty : Vals K E C := ⟨fun _ => none, fun _ => none⟩

/-- The variable gets a value. -/
def set (a : Vals K E C) (v : Nat) (x : Val C) : Vals K E C := { a with vars := Function.update a.vars v (some x) }

/-- The mesh is alive. -/
def alive (a : Vals K E C) (k : Nat) : Prop := ∃ d, a.meshes k = some (d, true)

open scoped Classical in
/-- Building the tree on mesh `k`: the tree of `C36` for the parameters (1.6 and 1 if there are none), with new leaves. -/
noncomputable def build (new : C) (a : Vals K E C) (x : Val C) (k deg : Nat) : Option (Val C) :=
  match a.meshes k with
  | some (d, true) =>
    let p := x.params.getD ⟨8 / 5, 1, none⟩
    let bt := initBlockClusterTree d.t d.B p.eta p.minLevel
    if (x.params ≠ none → x.shared = false) ∧ (∀ k' t, x.tree = some (k', t) → alive a k' ∧ bt.cc = Adm.refine) then
      some ⟨some { p with bound := some (k, deg) }, false, some (k, bt, List.replicate (leafPointers bt).length new)⟩
    else none
  | _ => none

open scoped Classical in
/-- One operation on values. -/
noncomputable def step (new : C) (a : Vals K E C) : Op K E C → Option (Vals K E C)
  | .meshNew k d => match a.meshes k with
    | none => some { a with meshes := Function.update a.meshes k (some (d, true)) }
    | some _ => none
  | .meshFree k => match a.meshes k with
    | some (d, true) => some { a with meshes := Function.update a.meshes k (some (d, false)) }
    | _ => none
  | .default v => match a.vars v with
    | none => some (set a v ⟨none, false, none⟩)
    | some _ => none
  | .build v k deg => match a.vars v with
    | none => (build new a ⟨none, false, none⟩ k deg).map (set a v)
    | some _ => none
  | .setParams v eta minLevel => match a.vars v with
    | some x => some (set a v ⟨some ⟨eta, minLevel, none⟩, false, x.tree⟩)
    | none => none
  | .init v k deg => match a.vars v with
    | some x => (build new a x k deg).map (set a v)
    | none => none
  | .copy v w => match a.vars v, a.vars w with
    | none, some ⟨p, _, some t⟩ =>
      if alive a t.1 then some (set (set a w ⟨p, true, some t⟩) v ⟨p, true, some t⟩) else none
    | _, _ => none
  | .move v w => match a.vars v, a.vars w with
    | none, some ⟨p, _, some t⟩ => if alive a t.1 then some (set (set a w ⟨p, true, none⟩) v ⟨p, true, some t⟩) else none
    | _, _ => none
  | .assign v w => match a.vars v, a.vars w with
    | some _, some ⟨p, _, some t⟩ =>
      if alive a t.1 then some (set (set a w ⟨p, true, some t⟩) v ⟨p, true, some t⟩) else none
    | _, _ => none
  | .moveAssign v w => match a.vars v, a.vars w with
    | some _, some ⟨p, _, some t⟩ => if alive a t.1 then some (set (set a w ⟨p, true, none⟩) v ⟨p, true, some t⟩) else none
    | _, _ => none
  | .write v i x => match a.vars v with
    | some ⟨p, s, some (k, bt, cs)⟩ => if i < cs.length then some (set a v ⟨p, s, some (k, bt, cs.set i x)⟩) else none
    | _ => none
  | .destroy v => match a.vars v with
    | some _ => some { a with vars := Function.update a.vars v none }
    | none => none

/-- A sequence of operations on values. -/
noncomputable def run (new : C) (a : Vals K E C) (ops : List (Op K E C)) : Option (Vals K E C) := ops.foldlM (step new) a

/-- What a program should see of the leaves of a tree. -/
def leaves (t : Nat × BTree × List C) : List (Info × C) := ((leafPointers t.2.1).map (infoOf t.1)).zip t.2.2

end Bembel.Spec.BlockTree
