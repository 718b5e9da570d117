import Verif.Lemmas.SolidHarmonic
import Mathlib.Algebra.Polynomial.Roots
/-! # Polynomial functions on the space -/

namespace Bembel.Sph
open Spec Finset Props

noncomputable section

/-- The monomial with the exponents `a`. -/
def mono (a : Fin 3 → Nat) (x : V3) : ℝ := x 0 ^ a 0 * x 1 ^ a 1 * x 2 ^ a 2

/-- Polynomial functions of total degree at most `N`. -/
def polySpace (N : Nat) : Submodule ℝ (V3 → ℝ) := Submodule.span ℝ {f | ∃ a : Fin 3 → Nat, a 0 + a 1 + a 2 ≤ N ∧ f = mono a}

theorem mono_mem {N : Nat} (a : Fin 3 → Nat) (h : a 0 + a 1 + a 2 ≤ N) : mono a ∈ polySpace N := Submodule.subset_span ⟨a, h, rfl⟩

theorem polySpace_mono {N M : Nat} (h : N ≤ M) : polySpace N ≤ polySpace M :=
  Submodule.span_mono fun _ ⟨a, h1, h2⟩ => ⟨a, h1.trans h, h2⟩

theorem coord_mul_mem {N : Nat} (i : Fin 3) {f : V3 → ℝ} (hf : f ∈ polySpace N) : (fun x => x i * f x) ∈ polySpace (N + 1) := by
  induction hf using Submodule.span_induction with
  | mem f h =>
    obtain ⟨a, h1, rfl⟩ := h
    have : (fun x => x i * mono a x) = mono (Function.update a i (a i + 1)) := by
      funext x; unfold mono; fin_cases i <;> simp [Function.update] <;> ring
    rw [this]
    refine mono_mem _ ?_
    fin_cases i <;> simp [Function.update] <;> omega
  | zero =>
    have : (fun x : V3 => x i * (0 : V3 → ℝ) x) = 0 := by funext x; simp
    rw [this]; exact Submodule.zero_mem _
  | add f g _ _ hf hg =>
    have : (fun x : V3 => x i * (f + g) x) = (fun x => x i * f x) + fun x => x i * g x := by funext x; simp [mul_add]
    rw [this]; exact Submodule.add_mem _ hf hg
  | smul c f _ hf =>
    have : (fun x : V3 => x i * (c • f) x) = c • fun x => x i * f x := by funext x; simp; ring
    rw [this]; exact Submodule.smul_mem _ _ hf

theorem const_mul_mem {N : Nat} (c : ℝ) {f : V3 → ℝ} (hf : f ∈ polySpace N) : (fun x => c * f x) ∈ polySpace N :=
  Submodule.smul_mem _ c hf

theorem cr_mem (m : Nat) : (fun x : V3 => cr (x 0) (x 1) m) ∈ polySpace m ∧ (fun x : V3 => ci (x 0) (x 1) m) ∈ polySpace m := by
  induction m with
  | zero =>
    simp only [cr_zero, ci_zero]
    refine ⟨?_, Submodule.zero_mem _⟩
    have : (fun _ : V3 => (1 : ℝ)) = mono (fun _ => 0) := by funext x; simp [mono]
    rw [this]; exact mono_mem _ (by simp)
  | succ m ih =>
    simp only [cr_succ, ci_succ]
    exact ⟨Submodule.sub_mem _ (coord_mul_mem 0 ih.1) (coord_mul_mem 1 ih.2), Submodule.add_mem _ (coord_mul_mem 0 ih.2) (coord_mul_mem 1 ih.1)⟩

theorem sq3_mul_mem {N : Nat} {f : V3 → ℝ} (hf : f ∈ polySpace N) : (fun x => sq3 x * f x) ∈ polySpace (N + 2) := by
  have : (fun x => sq3 x * f x) = (fun x : V3 => x 0 * (x 0 * f x)) + (fun x => x 1 * (x 1 * f x)) + fun x => x 2 * (x 2 * f x) := by
    funext x; simp only [sq3, Pi.add_apply]; ring
  rw [this]
  exact Submodule.add_mem _ (Submodule.add_mem _ (coord_mul_mem 0 (coord_mul_mem 0 hf)) (coord_mul_mem 1 (coord_mul_mem 1 hf)))
    (coord_mul_mem 2 (coord_mul_mem 2 hf))

theorem solidPoly_mem (m k : Nat) : solidPoly m k ∈ polySpace (m + k) := by
  induction k using Nat.strong_induction_on with
  | _ k ih =>
    match k, ih with
    | 0, _ =>
      have : solidPoly m 0 = fun x => legendreDeriv m m 0 * cr (x 0) (x 1) m := rfl
      rw [this]; exact const_mul_mem _ (cr_mem m).1
    | 1, _ =>
      have : solidPoly m 1 = fun x => (2 * m + 1) * (x 2 * (legendreDeriv m m 0 * cr (x 0) (x 1) m)) := rfl
      rw [this]; exact const_mul_mem _ (coord_mul_mem 2 (const_mul_mem _ (cr_mem m).1))
    | k + 2, ih =>
      have : solidPoly m (k + 2) = fun x => (1 / ((k : ℝ) + 2)) * ((fun x => (2 * m + 2 * k + 3) * (x 2 * solidPoly m (k + 1) x)) -
          fun x => (2 * m + k + 1) * (sq3 x * solidPoly m k x)) x := by
        funext x
        show (_ : ℝ) / _ = _
        simp only [Pi.sub_apply]
        ring
      rw [this]
      exact const_mul_mem _ (Submodule.sub_mem _ (const_mul_mem _ (coord_mul_mem 2 (ih (k + 1) (by omega))))
        (const_mul_mem _ (sq3_mul_mem (ih k (by omega)))))

/-! ## derivatives -/

theorem mono_smooth (a : Fin 3 → Nat) : ContDiff ℝ 2 (mono a) :=
  (((coord_smooth 0).pow _).mul ((coord_smooth 1).pow _)).mul ((coord_smooth 2).pow _)

theorem poly_smooth {N : Nat} {f : V3 → ℝ} (hf : f ∈ polySpace N) : ContDiff ℝ 2 f := by
  induction hf using Submodule.span_induction with
  | mem f h => obtain ⟨a, _, rfl⟩ := h; exact mono_smooth a
  | zero => exact contDiff_const
  | add f g _ _ hf hg => exact hf.add hg
  | smul c f _ hf => exact contDiff_const.mul hf

theorem mono_fderiv (a : Fin 3 → Nat) (i : Fin 3) (x : V3) : fderiv ℝ (mono a) x (sb i) = a i * mono (Function.update a i (a i - 1)) x := by
  have h : HasFDerivAt (mono a) _ x := (((proj_deriv 0 x).pow (a 0)).mul ((proj_deriv 1 x).pow (a 1))).mul ((proj_deriv 2 x).pow (a 2))
  rw [h.fderiv]
  fin_cases i <;> simp [sb_apply, mono, Function.update] <;> ring

theorem poly_fderiv {N : Nat} {f : V3 → ℝ} (hf : f ∈ polySpace N) (i : Fin 3) : (fun x => fderiv ℝ f x (sb i)) ∈ polySpace N := by
  induction hf using Submodule.span_induction with
  | mem f h =>
    obtain ⟨a, h1, rfl⟩ := h
    simp only [mono_fderiv]
    refine const_mul_mem _ (mono_mem _ ?_)
    fin_cases i <;> simp [Function.update] <;> omega
  | zero =>
    have : (fun x => fderiv ℝ (0 : V3 → ℝ) x (sb i)) = 0 := by funext x; simp
    rw [this]; exact Submodule.zero_mem _
  | add f g hf' hg' hf hg =>
    have : (fun x => fderiv ℝ (f + g) x (sb i)) = (fun x => fderiv ℝ f x (sb i)) + fun x => fderiv ℝ g x (sb i) := by
      funext x
      rw [fderiv_add ((poly_smooth hf').differentiable (by norm_num) x) ((poly_smooth hg').differentiable (by norm_num) x)]; rfl
    rw [this]; exact Submodule.add_mem _ hf hg
  | smul c f hf' hf =>
    have : (fun x => fderiv ℝ (c • f) x (sb i)) = c • fun x => fderiv ℝ f x (sb i) := by
      funext x
      rw [fderiv_const_smul ((poly_smooth hf').differentiable (by norm_num) x)]; rfl
    rw [this]; exact Submodule.smul_mem _ _ hf

/-! ## restriction to lines -/

theorem poly_line {N : Nat} {f : V3 → ℝ} (hf : f ∈ polySpace N) (x v : V3) : ∃ p : Polynomial ℝ, p.natDegree ≤ N ∧ ∀ t : ℝ, f (x + t • v) = p.eval t := by
  induction hf using Submodule.span_induction with
  | mem f h =>
    obtain ⟨a, h1, rfl⟩ := h
    have hd : ∀ i : Fin 3, ((Polynomial.C (x i) + Polynomial.C (v i) * Polynomial.X) ^ a i).natDegree ≤ a i := fun i =>
      (Polynomial.natDegree_pow_le).trans (by
        have : (Polynomial.C (x i) + Polynomial.C (v i) * Polynomial.X).natDegree ≤ 1 :=
          (Polynomial.natDegree_add_le _ _).trans (max_le (by simp) ((Polynomial.natDegree_C_mul_le _ _).trans (by simp)))
        nlinarith [Nat.mul_le_mul_left (a i) this])
    refine ⟨(Polynomial.C (x 0) + Polynomial.C (v 0) * Polynomial.X) ^ a 0 * (Polynomial.C (x 1) + Polynomial.C (v 1) * Polynomial.X) ^ a 1 *
      (Polynomial.C (x 2) + Polynomial.C (v 2) * Polynomial.X) ^ a 2, ?_, fun t => ?_⟩
    · refine Polynomial.natDegree_mul_le.trans (le_trans (add_le_add (Polynomial.natDegree_mul_le.trans (add_le_add (hd 0) (hd 1))) (hd 2)) h1)
    · simp [mono]; ring
  | zero => exact ⟨0, by simp, fun t => by simp⟩
  | add f g _ _ hf hg =>
    obtain ⟨p, p1, p2⟩ := hf
    obtain ⟨q, q1, q2⟩ := hg
    exact ⟨p + q, (Polynomial.natDegree_add_le _ _).trans (max_le p1 q1), fun t => by simp [p2, q2]⟩
  | smul c f _ hf =>
    obtain ⟨p, p1, p2⟩ := hf
    exact ⟨Polynomial.C c * p, (Polynomial.natDegree_C_mul_le _ _).trans p1, fun t => by simp [p2]⟩

/-- A polynomial function with more zeros on a line than its degree vanishes on the line. -/
theorem line_zero {N : Nat} {f : V3 → ℝ} (hf : f ∈ polySpace N) (x v : V3) (S : Finset ℝ) (hS : N < S.card) (h : ∀ t ∈ S, f (x + t • v) = 0) (t : ℝ) :
    f (x + t • v) = 0 := by
  obtain ⟨p, p1, p2⟩ := poly_line hf x v
  have : p = 0 := Polynomial.eq_zero_of_natDegree_lt_card_of_eval_eq_zero' p S (fun s hs => by rw [← p2]; exact h s hs) (by omega)
  rw [p2, this, Polynomial.eval_zero]

end
end Bembel.Sph
