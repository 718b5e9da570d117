import Verif.Model.Knots
import Verif.Spec.BSpline
import Verif.Lemmas.Bernstein
import Mathlib.Algebra.BigOperators.Group.Finset.Basic
import Mathlib.Algebra.BigOperators.Intervals
import Mathlib.Algebra.Module.BigOperators
import Mathlib.Algebra.Order.BigOperators.Group.Finset
import Mathlib.Tactic.Module
import Mathlib.Tactic.Ring
import Mathlib.Tactic.Linarith
import Mathlib.Tactic.FieldSimp

open Finset

namespace Bembel

theorem mapM_eq_some_map {α β : Type} (f : α → Option β) (g : α → β) (l : List α)
    (h : ∀ a ∈ l, f a = some (g a)) : l.mapM f = some (l.map g) := by
  induction l with
  | nil => rfl
  | cons a l ih =>
    rw [List.mapM_cons, h a (by simp), ih (fun b hb => h b (by simp [hb]))]; rfl

namespace Spl
open Basis

variable {K : Type} [Field K] [LinearOrder K]

theorem forLoop_push {α : Type} (n : Nat) (a : α) (out : List α) :
    forLoop n (fun out _ => out ++ [a]) out = out ++ List.replicate n a := by
  induction n with
  | zero => simp
  | succ n ih => rw [forLoop_succ, ih, List.append_assoc, ← List.replicate_succ']

theorem makeBezier_eq (p : Nat) :
    (makeBezierKnotVector p : List K) = List.replicate p 0 ++ List.replicate p 1 := by
  simp [makeBezierKnotVector, forLoop_push]

theorem forLoop_blocks {α : Type} (m r : Nat) (f : Nat → α) (out : List α) :
    forLoop m (fun out i => forLoop r (fun out _ => out ++ [f i]) out) out =
      out ++ (List.range m).flatMap fun i => List.replicate r (f i) := by
  induction m with
  | zero => simp
  | succ m ih =>
    rw [forLoop_succ, ih, forLoop_push, List.append_assoc, List.range_succ, List.flatMap_append]
    simp

theorem makeUniform_eq (p m r : Nat) :
    (makeUniformKnotVector p m r : List K) =
      List.replicate p 0 ++
        ((List.range m).flatMap fun (i : Nat) =>
          List.replicate r (((i : K) + 1) * (1 / ((m : K) + 1)))) ++
        List.replicate p 1 := by
  unfold makeUniformKnotVector
  simp only []
  rw [forLoop_push, forLoop_push, forLoop_blocks m r (fun (i : Nat) => ((i : K) + 1) * (1 / ((m : K) + 1)))]
  simp

/-! ### span search -/

theorem spanLoop_spec (t : Nat → K) (knots : List K) (x : K) (cols : Nat)
    (hk : ∀ i, i ≤ cols → knots[i]? = some (t i)) :
    ∀ fuel l, fuel + l = cols → (∀ j < l, t j ≤ x) →
      ∃ l', spanLoop knots x fuel l = some l' ∧ l' ≤ cols ∧ (∀ j < l', t j ≤ x) ∧
        (l' < cols → x < t l') := by
  intro fuel
  induction fuel with
  | zero =>
    intro l hl hj
    refine ⟨l, ?_, by omega, hj, by omega⟩
    rw [spanLoop, hk l (by omega)]; rfl
  | succ fuel ih =>
    intro l hl hj
    rw [spanLoop, hk l (by omega)]
    by_cases h : t l ≤ x
    · obtain ⟨l', h1, h2, h3, h4⟩ := ih (l + 1) (by omega) (fun j hjl => by
        rcases Nat.lt_succ_iff_lt_or_eq.1 hjl with h' | h'
        · exact hj j h'
        · exact h' ▸ h)
      exact ⟨l', by simpa [h] using h1, h2, h3, h4⟩
    · refine ⟨l, by simp [h], by omega, hj, fun _ => lt_of_not_ge h⟩

/-! ### support of the basis functions -/

variable {V : Type} [AddCommGroup V] [Module K V]

theorem bspline_support (t : Nat → K) (n : Nat) (x : K) (l : Nat)
    (hspan : ∀ i, Spec.inSpan t n i x ↔ i = l) (k i : Nat) (h : l < i ∨ i + k < l) :
    Spec.bspline t n x k i = 0 := by
  induction k generalizing i with
  | zero =>
    have : ¬ Spec.inSpan t n i x := by rw [hspan]; omega
    simp [Spec.bspline, this]
  | succ k ih =>
    rw [Spec.bspline, ih i (by omega), ih (i + 1) (by omega)]; simp

theorem bspline_zero (t : Nat → K) (n : Nat) (x : K) (l : Nat)
    (hspan : ∀ i, Spec.inSpan t n i x ↔ i = l) : Spec.bspline t n x 0 l = 1 := by
  have : Spec.inSpan t n l x := by rw [hspan]
  simp [Spec.bspline, this]

/-! ### the triangular scheme -/

/-- weight used in pass `k` for new entry `i` -/
def wgt (t : Nat → K) (x : K) (l k i : Nat) : K :=
  (x - t (l + 1 - k + i)) / (t (l + 1 + i) - t (l + 1 - k + i))

/-- functional version of one pass -/
def passF (t : Nat → K) (x : K) (l k : Nat) (f : Nat → V) : Nat → V :=
  fun i => wgt t x l k i • f (1 + i) + (1 - wgt t x l k i) • f i

/-- functional version of the loop -/
def loopF (t : Nat → K) (x : K) (l : Nat) : Nat → (Nat → V) → (Nat → V)
  | 0, f => f
  | k + 1, f => loopF t x l k (passF t x l (k + 1) f)

theorem deBoorPass_eq (t : Nat → K) (knots : List K) (x : K) (l k : Nat) (f : Nat → V)
    (hk : ∀ i, i < k → knots[l + 1 - k + i]? = some (t (l + 1 - k + i)) ∧
      knots[l + 1 + i]? = some (t (l + 1 + i)) ∧ t (l + 1 + i) - t (l + 1 - k + i) ≠ 0) :
    deBoorPass knots x l k ((List.range (k + 1)).map f) =
      some ((List.range k).map (passF t x l k f)) := by
  unfold deBoorPass
  refine mapM_eq_some_map _ _ _ fun i hi => ?_
  have hi' : i < k := List.mem_range.1 hi
  obtain ⟨h1, h2, h3⟩ := hk i hi'
  have e1 : ((List.range (k + 1)).map f)[i]? = some (f i) := by
    simp [List.getElem?_map, List.getElem?_range (show i < k + 1 by omega)]
  have e2 : ((List.range (k + 1)).map f)[1 + i]? = some (f (1 + i)) := by
    simp [List.getElem?_map, List.getElem?_range (show 1 + i < k + 1 by omega)]
  rw [h1, h2, e1, e2]
  simp [h3, passF, wgt]

theorem deBoorLoop_eq (t : Nat → K) (knots : List K) (x : K) (l : Nat) :
    ∀ (k : Nat) (f : Nat → V), k ≤ l →
    (∀ i j, i < k → l < k + j → j ≤ l → knots[j]? = some (t j) ∧
      knots[l + 1 + i]? = some (t (l + 1 + i)) ∧ t (l + 1 + i) - t j ≠ 0) →
    deBoorLoop knots x l k ((List.range (k + 1)).map f) =
      some ((List.range 1).map (loopF t x l k f)) := by
  intro k
  induction k with
  | zero => intro f _ _; rfl
  | succ k ih =>
    intro f hkl hk
    rw [deBoorLoop, deBoorPass_eq t knots x l (k + 1) f]
    · simp only [Option.bind_eq_bind, Option.bind_some]
      rw [ih _ (by omega) (fun i j hi h1 h2 => hk i j (by omega) (by omega) h2)]
      rfl
    · intro i hi
      exact hk i (l + 1 - (k + 1) + i) hi (by omega) (by omega)

/-- The invariant of the scheme: the Cox–de Boor combination is preserved by each pass. -/
theorem loopF_sum (t : Nat → K) (n : Nat) (x : K) (l : Nat)
    (hspan : ∀ i, Spec.inSpan t n i x ↔ i = l) :
    ∀ (k : Nat) (f : Nat → V), k ≤ l →
    (∀ i j, i < k → l < k + j → j ≤ l → t (l + 1 + i) - t j ≠ 0) →
    loopF t x l k f 0 = ∑ j ∈ range (k + 1), Spec.bspline t n x k (l - k + j) • f j := by
  intro k
  induction k with
  | zero => intro f _ _; simp [loopF, bspline_zero t n x l hspan]
  | succ k ih =>
    intro f hkl hne
    rw [loopF, ih _ (by omega) (fun i j hi h1 h2 => hne i j (by omega) (by omega) h2)]
    -- expand the degree k+1 functions
    have hz0 : Spec.bspline t n x k (l - (k + 1)) = 0 :=
      bspline_support t n x l hspan k _ (by omega)
    have hz1 : Spec.bspline t n x k (l + 1) = 0 :=
      bspline_support t n x l hspan k _ (by omega)
    have hexp : ∀ j, Spec.bspline t n x (k + 1) (l - (k + 1) + j) =
        (x - t (l - (k + 1) + j)) / (t (l - (k + 1) + j + k + 1) - t (l - (k + 1) + j)) *
          Spec.bspline t n x k (l - (k + 1) + j) +
        (t (l - (k + 1) + j + k + 2) - x) /
            (t (l - (k + 1) + j + k + 2) - t (l - (k + 1) + j + 1)) *
          Spec.bspline t n x k (l - (k + 1) + j + 1) := fun j => by rw [Spec.bspline]
    simp only [hexp, add_smul, Finset.sum_add_distrib]
    rw [Finset.sum_range_succ' (fun j => ((x - t (l - (k + 1) + j)) /
      (t (l - (k + 1) + j + k + 1) - t (l - (k + 1) + j)) *
          Spec.bspline t n x k (l - (k + 1) + j)) • f j) (k + 1)]
    rw [Finset.sum_range_succ (fun j => ((t (l - (k + 1) + j + k + 2) - x) /
            (t (l - (k + 1) + j + k + 2) - t (l - (k + 1) + j + 1)) *
          Spec.bspline t n x k (l - (k + 1) + j + 1)) • f j) (k + 1)]
    have e1 : l - (k + 1) + (k + 1) + 1 = l + 1 := by omega
    simp only [Nat.add_zero, hz0, e1, hz1, mul_zero, zero_smul, add_zero]
    rw [← Finset.sum_add_distrib]
    refine Finset.sum_congr rfl fun i hi => ?_
    have hi' : i < k + 1 := Finset.mem_range.1 hi
    have a1 : l - (k + 1) + (i + 1) = l - k + i := by omega
    have a2 : l - (k + 1) + i + 1 = l - k + i := by omega
    have a3 : l - k + i + k + 1 = l + 1 + i := by omega
    have a4 : l - (k + 1) + i + k + 2 = l + 1 + i := by omega
    have a5 : l + 1 - (k + 1) + i = l - k + i := by omega
    have hd : t (l + 1 + i) - t (l - k + i) ≠ 0 := hne i (l - k + i) hi' (by omega) (by omega)
    rw [a1, a2, a3, a4, passF, wgt, a5]
    rw [show (t (l + 1 + i) - x) / (t (l + 1 + i) - t (l - k + i)) =
      1 - (x - t (l - k + i)) / (t (l + 1 + i) - t (l - k + i)) by field_simp; ring]
    rw [Nat.add_comm 1 i]
    module

end Spl
end Bembel
