import Verif.Model.GeometryHandle
/-!
# Specification: geometries and ansatz spaces as values

Every variable holds its own value; copying copies the value, moving hands it over and leaves nothing behind, and an ansatz space
keeps the geometry it was built with.  The flag of a geometry says that an ansatz space was built from it: then nothing is
promised about modifications in place (`none`).
-/

namespace Bembel.Spec.Handle
open Bembel.Handle

variable {P : Type}

/-- Values of the variables; `some none` is a geometry without patches vector (default constructed or moved from). -/
structure Vals (P : Type) where
  geo : Nat → Option (Option (P × Bool))
  space : Nat → Option (P × Nat × Nat × Nat)

/-- No variables. -/
def Vals.empty : Vals P := ⟨fun _ => none, fun _ => none⟩

/-- One operation on values. -/
def step (a : Vals P) : Op P → Option (Vals P)
  | .geoDefault v => some { a with geo := Function.update a.geo v (some none) }
  | .geoVector v x => some { a with geo := Function.update a.geo v (some (some (x, false))) }
  | .geoInit v x => match a.geo v with
    | some _ => some { a with geo := Function.update a.geo v (some (some (x, false))) }
    | none => none
  | .geoCopy v w => match a.geo w with
    | some (some x) => some { a with geo := Function.update a.geo v (some (some (x.1, false))) }
    | _ => none
  | .geoMove v w => match a.geo w with
    | some x => some { a with geo := Function.update (Function.update a.geo w (some none)) v (some x) }
    | none => none
  | .geoAssign v w => match a.geo v, a.geo w with
    | some _, some (some x) => some { a with geo := Function.update a.geo v (some (some (x.1, false))) }
    | _, _ => none
  | .geoMoveAssign v w => match a.geo v, a.geo w with
    | some _, some x => some { a with geo := Function.update (Function.update a.geo w (some none)) v (some x) }
    | _, _ => none
  | .geoModify v f => match a.geo v with
    | some (some (x, false)) => some { a with geo := Function.update a.geo v (some (some (f x, false))) }
    | _ => none
  | .geoDestroy v => match a.geo v with
    | some _ => some { a with geo := Function.update a.geo v none }
    | none => none
  | .spaceBuild s v M p rep => match a.geo v with
    | some (some (x, _)) => some ⟨Function.update a.geo v (some (some (x, true))), Function.update a.space s (some (x, M, p, rep))⟩
    | _ => none
  | .spaceCopy s t => match a.space t with
    | some x => some { a with space := Function.update a.space s (some x) }
    | none => none
  | .spaceMove s t => match a.space t with
    | some x => some { a with space := Function.update a.space s (some x) }
    | none => none
  | .spaceAssign s t => match a.space s, a.space t with
    | some _, some x => some { a with space := Function.update a.space s (some x) }
    | _, _ => none
  | .spaceDestroy s => match a.space s with
    | some _ => some { a with space := Function.update a.space s none }
    | none => none

/-- A sequence of operations on values. -/
def run (a : Vals P) (ops : List (Op P)) : Option (Vals P) := ops.foldlM step a

end Bembel.Spec.Handle
