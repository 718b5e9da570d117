import Verif.Spec.Square
import Verif.Props.Mesh
import Verif.Model.Quadrature
import Verif.Spec.Operators
/-!
# Elements lie in the unit square of their patch
-/

namespace Bembel.Props
open Mesh Spec SuperSpace H2

/-- The reference square of every node of the mesh is mapped into the unit square of one of the patches. -/
theorem node_square {V : Type} (near : V → V → Bool) (corner : Nat → Nat → V) (P M : Nat) (hP : 0 < P) (t : Mesh.Tree ℝ)
    (ht : initElementTree near corner P M = some t) (l : Nat) (hl : l ≤ M) (a : Addr) (ha : IsNode P l a) (x : ℝ × ℝ)
    (hx : ClosedSquare x) :
    t.patch a < P ∧ ClosedSquare ((t.llc a).1 + getH t a * x.1, (t.llc a).2 + getH t a * x.2) := by
  obtain ⟨t', k1, k2, -⟩ := tree_facts (K := ℝ) near corner P M hP
  obtain rfl : t = t' := Option.some.inj (ht.symm.trans k1)
  obtain ⟨g1, g2, g3, g4⟩ := k2 l hl a (mem_leaves.2 ha)
  obtain ⟨x0, x1, y0, y1⟩ := hx
  have hlt := pos_lt a.2
  have hpos : (0 : ℝ) < 2 ^ a.2.length := by positivity
  have e1 : ((posX a.2 : Nat) : ℝ) + 1 ≤ 2 ^ a.2.length := by exact_mod_cast hlt.1
  have e2 : ((posY a.2 : Nat) : ℝ) + 1 ≤ 2 ^ a.2.length := by exact_mod_cast hlt.2
  refine ⟨by rw [g3]; exact ha.1, ?_⟩
  have hh : getH t a = 1 / 2 ^ a.2.length := by unfold getH; rw [g2]
  rw [hh, g4]
  simp only [ClosedSquare]
  refine ⟨by positivity, ?_, by positivity, ?_⟩
  · rw [one_div_mul_eq_div, ← add_div, div_le_one hpos]; linarith
  · rw [one_div_mul_eq_div, ← add_div, div_le_one hpos]; linarith

/-- Regular parametrisations are regular at all points of all elements. -/
theorem node_regular {V : Type} (near : V → V → Bool) (corner : Nat → Nat → V) (P M : Nat) (hP : 0 < P) (t : Mesh.Tree ℝ)
    (ht : initElementTree near corner P M = some t) (geo : Nat → ℝ × ℝ → V3 × V3 × V3) (hgeo : RegularPatches P geo)
    (l : Nat) (hl : l ≤ M) (a : Addr) (ha : IsNode P l a) (x : ℝ × ℝ) (hx : ClosedSquare x) (w : ℝ) :
    Regular (map2surface t geo a x w) :=
  have h := node_square near corner P M hP t ht l hl a ha x hx
  hgeo _ h.1 _ h.2

/-- The tangents outside of the unit square are replaced by unit vectors. -/
noncomputable def extendGeo (P : Nat) (geo : Nat → ℝ × ℝ → V3 × V3 × V3) : Nat → ℝ × ℝ → V3 × V3 × V3 :=
  open scoped Classical in
  fun p x => ((geo p x).1, if p < P ∧ ClosedSquare x then (geo p x).2 else (!₂[1, 0, 0], !₂[0, 1, 0]))

theorem extendGeo_regular (P : Nat) (geo : Nat → ℝ × ℝ → V3 × V3 × V3) (hgeo : RegularPatches P geo) (p : Nat) (x : ℝ × ℝ) :
    cross3 (extendGeo P geo p x).2.1 (extendGeo P geo p x).2.2 ≠ 0 := by
  unfold extendGeo
  split
  · rename_i h; exact hgeo p h.1 x h.2
  · intro h
    have := congrFun (congrArg WithLp.ofLp h) 2
    simp [cross3] at this

theorem map2surface_extend {V : Type} (near : V → V → Bool) (corner : Nat → Nat → V) (P M : Nat) (hP : 0 < P) (t : Mesh.Tree ℝ)
    (ht : initElementTree near corner P M = some t) (geo : Nat → ℝ × ℝ → V3 × V3 × V3)
    (l : Nat) (hl : l ≤ M) (a : Addr) (ha : IsNode P l a) (x : ℝ × ℝ) (hx : ClosedSquare x) (w : ℝ) :
    map2surface t geo a x w = map2surface t (extendGeo P geo) a x w := by
  have h := node_square near corner P M hP t ht l hl a ha x hx
  unfold map2surface extendGeo
  simp only [if_pos h]

/-- The nodes of a tensor product rule. -/
theorem tensorRule_closed (q : Quad1 ℝ) (hq : ∀ i < q.size, 0 ≤ q.xi i ∧ q.xi i ≤ 1) (k : Nat) (hk : k < (tensorRule q).size) :
    Spec.ClosedSquare ((tensorRule q).xi k) := by
  have hk : k < q.size * q.size := hk
  have h0 : 0 < q.size := Nat.pos_of_ne_zero fun h => by simp [h] at hk
  have h1 := hq (k / q.size) ((Nat.div_lt_iff_lt_mul h0).2 hk)
  have h2 := hq (k % q.size) (Nat.mod_lt _ h0)
  exact ⟨h1.1, h1.2, h2.1, h2.2⟩

end Bembel.Props
