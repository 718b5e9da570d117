import Verif.Spec.Mesh
import Mathlib.Data.Real.Basic
/-!
# Specification: elements of two meshes of the same patches

The element `a` of level `M` occupies the square of side `1 / 2 ^ M` of its patch with lower left corner `llc a`.
-/

namespace Bembel.Spec
open Mesh

/-- Element `b` of the mesh `t'` of level `M'` lies in element `a` of the mesh `t` of level `M`: same patch, and the square of `b` is a part of
the square of `a`. -/
def SubElement (t t' : Mesh.Tree ℝ) (M M' : Nat) (a b : Addr) : Prop :=
  t.patch a = t'.patch b ∧
    (t.llc a).1 ≤ (t'.llc b).1 ∧ (t'.llc b).1 + 1 / 2 ^ M' ≤ (t.llc a).1 + 1 / 2 ^ M ∧
    (t.llc a).2 ≤ (t'.llc b).2 ∧ (t'.llc b).2 + 1 / 2 ^ M' ≤ (t.llc a).2 + 1 / 2 ^ M

/-- The local coordinates `s` on `a` and `s'` on `b` are the same point of the patch. -/
def SamePoint (t t' : Mesh.Tree ℝ) (M M' : Nat) (a b : Addr) (s s' : ℝ × ℝ) : Prop :=
  (t.llc a).1 + s.1 / 2 ^ M = (t'.llc b).1 + s'.1 / 2 ^ M' ∧ (t.llc a).2 + s.2 / 2 ^ M = (t'.llc b).2 + s'.2 / 2 ^ M'

end Bembel.Spec
