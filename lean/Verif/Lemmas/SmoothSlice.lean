import Mathlib.Analysis.Calculus.ContDiff.Basic
import Mathlib.Analysis.Calculus.ContDiff.Operations
import Mathlib.Analysis.Calculus.FDeriv.Comp
import Mathlib.Analysis.SpecialFunctions.Pow.Real
import Verif.Spec.Smooth
import Verif.Lemmas.SmoothApprox
/-! # Partial derivatives of smooth functions on compact sets -/

namespace Bembel.Interpol
open Finset H2 Spec
open scoped ContDiff

variable {R : Type} [RCLike R]
variable {X : Type} [NormedAddCommGroup X] [NormedSpace ℝ X]
variable {E : Type} [NormedAddCommGroup E] [NormedSpace ℝ E]

theorem slice_deriv (K : Set X) (hK : IsCompact K) (e : X) (m : Nat) : ∀ g : X → E, (∀ y ∈ K, ContDiffAt ℝ ∞ g y) →
    ∃ D, ∀ x, (∀ s ∈ Set.Icc (0 : ℝ) 1, x + s • e ∈ K) → ∀ s ∈ Set.Icc (0 : ℝ) 1,
      ‖iteratedDerivWithin m (fun s : ℝ => g (x + s • e)) (Set.Icc 0 1) s‖ ≤ D := by
  have hu := uniqueDiffOn_Icc (zero_lt_one (α := ℝ))
  induction m with
  | zero =>
    intro g hg
    obtain ⟨D, hD⟩ := hK.exists_bound_of_continuousOn (f := g) fun y hy => (hg y hy).continuousAt.continuousWithinAt
    exact ⟨D, fun x hx s hs => by rw [iteratedDerivWithin_zero]; exact hD _ (hx s hs)⟩
  | succ m ih =>
    intro g hg
    obtain ⟨D, hD⟩ := ih (fun y => fderiv ℝ g y e) fun y hy => ((hg y hy).fderiv_right (m := ∞) (by simp)).clm_apply contDiffAt_const
    refine ⟨D, fun x hx s hs => ?_⟩
    rw [iteratedDerivWithin_succ']
    refine le_trans (le_of_eq (congrArg norm ?_)) (hD x hx s hs)
    refine iteratedDerivWithin_congr (fun t ht => ?_) hs
    have h1 : HasFDerivAt g (fderiv ℝ g (x + t • e)) (x + t • e) := ((hg _ (hx t ht)).differentiableAt (by simp)).hasFDerivAt
    have h2 : HasDerivAt (fun s : ℝ => x + s • e) e t := by
      simpa using ((hasDerivAt_id t).smul_const e).const_add x
    exact (h1.comp_hasDerivAt t h2).hasDerivWithinAt.derivWithin (hu t ht)

theorem slice_contDiff (K : Set X) (e : X) (m : Nat) (g : X → E) (hg : ∀ y ∈ K, ContDiffAt ℝ ∞ g y) (x : X)
    (hx : ∀ s ∈ Set.Icc (0 : ℝ) 1, x + s • e ∈ K) : ContDiffOn ℝ m (fun s : ℝ => g (x + s • e)) (Set.Icc 0 1) := by
  intro s hs
  have h1 : ContDiffAt ℝ m (fun s : ℝ => x + s • e) s := by fun_prop
  exact (((hg _ (hx s hs)).of_le (by exact_mod_cast le_top)).comp s h1).contDiffWithinAt

/-- The closed square as a set. -/
theorem square_compact : IsCompact {x : (ℝ × ℝ) × (ℝ × ℝ) | ClosedSquare x.1 ∧ ClosedSquare x.2} := by
  have hc : IsCompact (Set.Icc (0 : ℝ) 1 ×ˢ Set.Icc (0 : ℝ) 1) := isCompact_Icc.prod isCompact_Icc
  have := hc.prod hc
  have e : {x : (ℝ × ℝ) × (ℝ × ℝ) | ClosedSquare x.1 ∧ ClosedSquare x.2} =
      (Set.Icc (0 : ℝ) 1 ×ˢ Set.Icc (0 : ℝ) 1) ×ˢ (Set.Icc (0 : ℝ) 1 ×ˢ Set.Icc (0 : ℝ) 1) := by
    ext x
    simp only [ClosedSquare, Set.mem_setOf_eq, Set.mem_prod, Set.mem_Icc]
    tauto
  rw [e]; exact this

/-- Smooth functions have bounded partial derivatives. -/
theorem partial_bound (f : ℝ × ℝ → ℝ × ℝ → R) (hf : SmoothPair f) (m : Nat) : ∃ D, 0 ≤ D ∧ PartialBound m f D := by
  obtain ⟨g, hg, hfg⟩ := hf
  set K := {x : (ℝ × ℝ) × (ℝ × ℝ) | ClosedSquare x.1 ∧ ClosedSquare x.2} with hK
  have hgK : ∀ y ∈ K, ContDiffAt ℝ ∞ g y := fun y hy => hg y.1 y.2 hy.1 hy.2
  have one : ∀ e : (ℝ × ℝ) × (ℝ × ℝ), ∃ D, ∀ (x : (ℝ × ℝ) × (ℝ × ℝ)) (h : ℝ → R), (∀ s ∈ Set.Icc (0 : ℝ) 1, x + s • e ∈ K) →
      (∀ s ∈ Set.Icc (0 : ℝ) 1, h s = g (x + s • e)) → DerivBound m h D := by
    intro e
    obtain ⟨D, hD⟩ := slice_deriv K square_compact e m g hgK
    refine ⟨D, fun x h hx hh => ⟨(slice_contDiff K e m g hgK x hx).congr hh, fun s hs => ?_⟩⟩
    rw [iteratedDerivWithin_congr (n := m) (f := h) (g := fun s => g (x + s • e)) (fun s hs => hh s hs) hs]
    exact hD x hx s hs
  obtain ⟨D1, d1⟩ := one ((1, 0), (0, 0))
  obtain ⟨D2, d2⟩ := one ((0, 1), (0, 0))
  obtain ⟨D3, d3⟩ := one ((0, 0), (1, 0))
  obtain ⟨D4, d4⟩ := one ((0, 0), (0, 1))
  have mono : ∀ (h : ℝ → R) (D D' : ℝ), D ≤ D' → DerivBound m h D → DerivBound m h D' := fun h D D' hd H => ⟨H.1, fun s hs => (H.2 s hs).trans hd⟩
  refine ⟨max 0 (max (max D1 D2) (max D3 D4)), le_max_left _ _, fun y z hy hz => ⟨?_, ?_, ?_, ?_⟩⟩
  · have E : ∀ s : ℝ, (((0, y.2), z) : (ℝ × ℝ) × (ℝ × ℝ)) + s • (((1, 0), (0, 0)) : (ℝ × ℝ) × (ℝ × ℝ)) = ((s, y.2), z) := fun s => by ext <;> simp
    refine mono _ D1 _ (by simp) (d1 ((0, y.2), z) _ (fun s hs => ?_) fun s hs => ?_)
    · rw [E]; exact ⟨⟨hs.1, hs.2, hy.2.2⟩, hz⟩
    · rw [E]; exact hfg (s, y.2) z ⟨hs.1, hs.2, hy.2.2⟩ hz
  · have E : ∀ s : ℝ, (((y.1, 0), z) : (ℝ × ℝ) × (ℝ × ℝ)) + s • (((0, 1), (0, 0)) : (ℝ × ℝ) × (ℝ × ℝ)) = ((y.1, s), z) := fun s => by ext <;> simp
    refine mono _ D2 _ (by simp) (d2 ((y.1, 0), z) _ (fun s hs => ?_) fun s hs => ?_)
    · rw [E]; exact ⟨⟨hy.1, hy.2.1, hs.1, hs.2⟩, hz⟩
    · rw [E]; exact hfg (y.1, s) z ⟨hy.1, hy.2.1, hs.1, hs.2⟩ hz
  · have E : ∀ s : ℝ, ((y, (0, z.2)) : (ℝ × ℝ) × (ℝ × ℝ)) + s • (((0, 0), (1, 0)) : (ℝ × ℝ) × (ℝ × ℝ)) = (y, (s, z.2)) := fun s => by ext <;> simp
    refine mono _ D3 _ (by simp) (d3 (y, (0, z.2)) _ (fun s hs => ?_) fun s hs => ?_)
    · rw [E]; exact ⟨hy, ⟨hs.1, hs.2, hz.2.2⟩⟩
    · rw [E]; exact hfg y (s, z.2) hy ⟨hs.1, hs.2, hz.2.2⟩
  · have E : ∀ s : ℝ, ((y, (z.1, 0)) : (ℝ × ℝ) × (ℝ × ℝ)) + s • (((0, 0), (0, 1)) : (ℝ × ℝ) × (ℝ × ℝ)) = (y, (z.1, s)) := fun s => by ext <;> simp
    refine mono _ D4 _ (by simp) (d4 (y, (z.1, 0)) _ (fun s hs => ?_) fun s hs => ?_)
    · rw [E]; exact ⟨hy, ⟨hz.1, hz.2.1, hs.1, hs.2⟩⟩
    · rw [E]; exact hfg y (z.1, s) hy ⟨hz.1, hz.2.1, hs.1, hs.2⟩

end Bembel.Interpol
