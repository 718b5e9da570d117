import Verif.Spec.Mesh
import Mathlib.Logic.Relation
/-!
# Specification: connected surfaces
-/

namespace Bembel.Spec
open Mesh

/-- Any two of the `nP` patches are joined by a chain of patches of which neighbouring ones have a common edge. -/
def ConnectedPatches {V : Type} (corner : Nat → Nat → V) (nP : Nat) : Prop :=
  ∀ p < nP, ∀ q < nP, Relation.ReflTransGen
    (fun p q => p < nP ∧ q < nP ∧ ∃ i < 4, ∃ k < 4, patchEdge corner p i = patchEdge corner q k) p q

end Bembel.Spec
