import Verif.Props.LinearForm
import Verif.Props.Potential
/-!
# C53, C61: load vectors are linear in the data
-/

namespace Bembel.Props
open Mesh SuperSpace LinearForm FunctionEval Spec Finset

variable {R : Type} [Field R] [Algebra ℝ R] {V : Type} (near : V → V → Bool) (corner : Nat → Nat → V) (np M : Nat) (hP : 0 < np)
  (space : Space R) (ht : initElementTree near corner np M = some space.t) (junk : Nat → R) (Q : Cubature ℝ)
include hP ht

/-- C53: the load vectors of the Dirichlet and Neumann trace are linear in the data, for every mesh, degree and quadrature rule. -/
theorem C53_linear_load_scalar (hT : space.trans.rows = 1 * ((space.P + 1) * (space.P + 1) * space.t.nElements)) (α β : R) :
    (∀ g g' : V3 → R, ∃ v v' v'', compute junk (dirichlet g) space Q = some v ∧ compute junk (dirichlet g') space Q = some v' ∧
      compute junk (dirichlet fun x => α * g x + β * g' x) space Q = some v'' ∧
      ∀ c < space.trans.cols, v''.at' c 0 = α * v.at' c 0 + β * v'.at' c 0) ∧
    ∀ g g' : V3 → Fin 3 → R, ∃ v v' v'', compute junk (neumann g) space Q = some v ∧ compute junk (neumann g') space Q = some v' ∧
      compute junk (neumann fun x k => α * g x k + β * g' x k) space Q = some v'' ∧
      ∀ c < space.trans.cols, v''.at' c 0 = α * v.at' c 0 + β * v'.at' c 0 := by
  constructor
  · intro g g'
    obtain ⟨els, v, a1, a2, -, -, a5⟩ := C61_dirichlet near corner np M hP space ht hT junk Q g
    obtain ⟨els', v', b1, b2, -, -, b5⟩ := C61_dirichlet near corner np M hP space ht hT junk Q g'
    obtain ⟨els'', v'', c1, c2, -, -, c5⟩ := C61_dirichlet near corner np M hP space ht hT junk Q fun x => α * g x + β * g' x
    obtain rfl : els = els' := Option.some.inj (a1.symm.trans b1)
    obtain rfl : els = els'' := Option.some.inj (a1.symm.trans c1)
    refine ⟨v, v', v'', a2, b2, c2, fun c hc => ?_⟩
    rw [a5 c hc, b5 c hc, c5 c hc]
    exact surfaceQuad_lin _ _ _ _ _ _ _ _ _ fun a p => by ring
  · intro g g'
    obtain ⟨els, v, a1, a2, -, -, a5⟩ := C61_neumann near corner np M hP space ht hT junk Q g
    obtain ⟨els', v', b1, b2, -, -, b5⟩ := C61_neumann near corner np M hP space ht hT junk Q g'
    obtain ⟨els'', v'', c1, c2, -, -, c5⟩ := C61_neumann near corner np M hP space ht hT junk Q fun x k => α * g x k + β * g' x k
    obtain rfl : els = els' := Option.some.inj (a1.symm.trans b1)
    obtain rfl : els = els'' := Option.some.inj (a1.symm.trans c1)
    refine ⟨v, v', v'', a2, b2, c2, fun c hc => ?_⟩
    rw [a5 c hc, b5 c hc, c5 c hc]
    refine surfaceQuad_lin _ _ _ _ _ _ _ _ _ fun a p => ?_
    simp only [Fin.sum_univ_three]
    ring

/-- C53: the load vector of the rotated tangential trace is linear in the data; that of the tangential trace as well if Eigen's `cross` does
not conjugate (`cj` is the identity), and otherwise it is conjugate linear. -/
theorem C53_linear_load_vector (hT : space.trans.rows = 2 * ((space.P + 1) * (space.P + 1) * space.t.nElements)) (α β : R)
    (g g' : V3 → Fin 3 → R) :
    (∀ cj : R → R, ∃ v v' v'', compute junk (rotatedTangential cj g) space Q = some v ∧ compute junk (rotatedTangential cj g') space Q = some v' ∧
      compute junk (rotatedTangential cj fun x k => α * g x k + β * g' x k) space Q = some v'' ∧
      ∀ c < space.trans.cols, v''.at' c 0 = α * v.at' c 0 + β * v'.at' c 0) ∧
    ∀ cj : R →ₐ[ℝ] R, ∃ v v' v'', compute junk (tangential cj g) space Q = some v ∧ compute junk (tangential cj g') space Q = some v' ∧
      compute junk (tangential cj fun x k => α * g x k + β * g' x k) space Q = some v'' ∧
      ∀ c < space.trans.cols, v''.at' c 0 = cj α * v.at' c 0 + cj β * v'.at' c 0 := by
  constructor
  · intro cj
    obtain ⟨els, v, a1, a2, -, -, a5⟩ := C61_rotated_tangential near corner np M hP space ht hT junk Q g cj
    obtain ⟨els', v', b1, b2, -, -, b5⟩ := C61_rotated_tangential near corner np M hP space ht hT junk Q g' cj
    obtain ⟨els'', v'', c1, c2, -, -, c5⟩ := C61_rotated_tangential near corner np M hP space ht hT junk Q (fun x k => α * g x k + β * g' x k) cj
    obtain rfl : els = els' := Option.some.inj (a1.symm.trans b1)
    obtain rfl : els = els'' := Option.some.inj (a1.symm.trans c1)
    refine ⟨v, v', v'', a2, b2, c2, fun c hc => ?_⟩
    rw [a5 c hc, b5 c hc, c5 c hc]
    refine surfaceQuad_lin _ _ _ _ _ _ _ _ _ fun a p => ?_
    simp only [Fin.sum_univ_three]
    ring
  · intro cj
    obtain ⟨els, v, a1, a2, -, -, a5⟩ := C61_tangential near corner np M hP space ht hT junk Q g cj
    obtain ⟨els', v', b1, b2, -, -, b5⟩ := C61_tangential near corner np M hP space ht hT junk Q g' cj
    obtain ⟨els'', v'', c1, c2, -, -, c5⟩ := C61_tangential near corner np M hP space ht hT junk Q (fun x k => α * g x k + β * g' x k) cj
    obtain rfl : els = els' := Option.some.inj (a1.symm.trans b1)
    obtain rfl : els = els'' := Option.some.inj (a1.symm.trans c1)
    refine ⟨v, v', v'', a2, b2, c2, fun c hc => ?_⟩
    rw [a5 c hc, b5 c hc, c5 c hc]
    refine surfaceQuad_lin _ _ _ _ _ _ _ _ _ fun a p => ?_
    simp only [map_add, map_mul]
    ring

end Bembel.Props
