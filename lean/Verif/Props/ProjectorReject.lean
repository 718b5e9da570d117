import Verif.Props.AnsatzSpace
/-! # C34: spaces that the projector rejects -/

namespace Bembel.Props
open Mesh Projector Ansatz

section
variable {K : Type} [Field K] [LinearOrder K] (junk : Nat → K) (junkM : Nat → Nat → K) (solve : Nat → (Nat → Nat → K) → (Nat → K) → Nat → K)
  (t : Mesh.Tree K) (P M nP rep : Nat)

/-- C34: continuous and divergence conforming spaces of degree zero or with more equal knots than the degree are rejected. -/
theorem C34_rejects (h : P = 0 ∨ P < rep) :
    makeMatrixCont junk junkM solve t P M nP rep = none ∧ makeMatrixDiv junk junkM solve t P M nP rep = none ∧
    transformationCont junk junkM solve t P M nP rep = none ∧ transformationDiv junk junkM solve t P M nP rep = none := by
  have n : ¬(P > 0 ∧ rep ≤ P) := by omega
  have h1 : makeMatrixCont junk junkM solve t P M nP rep = none := if_neg n
  have h2 : makeMatrixDiv junk junkM solve t P M nP rep = none := if_neg n
  refine ⟨h1, h2, ?_, ?_⟩
  · unfold transformationCont
    rw [h1]; rfl
  · unfold transformationDiv
    rw [h2]; rfl

end

/-- Quadratic spaces with triple knots are rejected. -/
example (t : Mesh.Tree ℝ) : transformationCont (fun _ => 0) (fun _ _ => 0) (fun _ _ _ _ => 0) t 2 1 1 3 = none :=
  (C34_rejects _ _ _ t 2 1 1 3 (Or.inr (by norm_num))).2.2.1

end Bembel.Props
