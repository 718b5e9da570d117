import Mathlib.Data.Nat.Basic
/-!
# Specification of the relative position of two elements

`v1 i`, `v2 j` are the vertex numbers of the two elements, counted counter-clockwise.
-/

namespace Bembel
namespace Props

/-- No common vertex. -/
def ShareNothing (v1 v2 : Nat → Nat) : Prop := ∀ i < 4, ∀ j < 4, v1 i ≠ v2 j

/-- The only common vertex is number `r` of the first and number `s` of the second element. -/
def ShareVertex (v1 v2 : Nat → Nat) (r s : Nat) : Prop :=
  r < 4 ∧ s < 4 ∧ ∀ i < 4, ∀ j < 4, v1 i = v2 j ↔ i = r ∧ j = s

/-- The common vertices are the ends of edge `r` of the first and of edge `s` of the second element, and the edges run in
opposite directions. -/
def ShareEdge (v1 v2 : Nat → Nat) (r s : Nat) : Prop :=
  r < 4 ∧ s < 4 ∧ ∀ i < 4, ∀ j < 4, v1 i = v2 j ↔ (i = r ∧ j = (s + 1) % 4) ∨ (i = (r + 1) % 4 ∧ j = s)

end Props
end Bembel
