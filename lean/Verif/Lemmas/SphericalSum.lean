import Verif.Model.Sphericals
import Verif.Lemmas.SphericalRec
/-! # Lemmas: the loops of `util/Sphericals.hpp` -/

namespace Bembel
namespace Sph
open Spec

theorem foldlM_range_states {α : Type} (f : α → Nat → Option α) (I : Nat → α) (n : Nat) (h : ∀ k < n, f (I k) k = some (I (k + 1))) :
    (List.range n).foldlM f (I 0) = some (I n) := by
  induction n with
  | zero => rfl
  | succ n ih =>
    rw [List.range_succ, List.foldlM_append, ih fun k hk => h k (by omega)]
    simp [h n (by omega)]

theorem foldlM_range_inv {α : Type} (f : α → Nat → Option α) (I : Nat → α → Prop) (n : Nat) (a : α) (h0 : I 0 a)
    (h : ∀ k < n, ∀ a, I k a → ∃ b, f a k = some b ∧ I (k + 1) b) : ∃ b, (List.range n).foldlM f a = some b ∧ I n b := by
  induction n with
  | zero => exact ⟨a, rfl, h0⟩
  | succ n ih =>
    obtain ⟨b, h1, h2⟩ := ih fun k hk => h k (by omega)
    obtain ⟨c, h3, h4⟩ := h n (by omega) b h2
    refine ⟨c, ?_, h4⟩
    rw [List.range_succ, List.foldlM_append, h1]
    simp [h3]

/-- The pair of degree `n` and order `m` with the power `c + i d` of `x_0 + i x_1`. -/
noncomputable def zz (c d : ℝ) (n m : Nat) (t : ℝ) : Z := (q n m t * c, q n m t * d)

theorem threeTerm_zz (c d t : ℝ) (n m : Nat) (h : m ≤ n) :
    threeTerm t (n + 2) m (zz c d n m t) (zz c d (n + 1) m t) = zz c d (n + 2) m t := by
  unfold threeTerm zz
  have e := q_rec n m h t
  simp only [Prod.mk.injEq]
  constructor
  · rw [e]; push_cast; ring_nf
  · rw [e]; push_cast; ring_nf

theorem second_zz (c d t : ℝ) (m : Nat) : second t m (zz c d m m t) = zz c d (m + 1) m t := by
  unfold second zz
  rw [q_sub]
  simp only [Prod.mk.injEq]
  constructor <;> ring

theorem nextOrder_zz (x : V3) (m k : Nat) (t : ℝ) : nextOrder x m (zz (cr (x 0) (x 1) k) (ci (x 0) (x 1) k) m m t) =
    zz (cr (x 0) (x 1) (k + 1)) (ci (x 0) (x 1) (k + 1)) (m + 1) (m + 1) t := by
  unfold nextOrder zz
  rw [q_diag, cr_succ, ci_succ]
  simp only [Prod.mk.injEq]
  constructor <;> ring

theorem get_of_lt (cs : List ℝ) (i : Nat) (h : i < cs.length) : cs[i]? = some (cs.getD i 0) := by
  rw [List.getElem?_eq_getElem h, List.getD_eq_getElem?_getD, List.getElem?_eq_getElem h]; rfl

/-! ## sums over the orders -/

theorem sum_orders {M : Type} [AddCommMonoid M] (n : Nat) (g : Int → M) : ∑ m ∈ Finset.Icc (-(n : Int)) n, g m =
    g 0 + ∑ j ∈ Finset.range n, (g (j + 1) + g (-(j + 1))) := by
  induction n with
  | zero => simp
  | succ n ih =>
    have e : Finset.Icc (-((n + 1 : Nat) : Int)) ((n + 1 : Nat) : Int) =
        insert (((n + 1 : Nat) : Int)) (insert (-((n + 1 : Nat) : Int)) (Finset.Icc (-(n : Int)) n)) := by
      ext a; simp only [Finset.mem_insert, Finset.mem_Icc]; push_cast; omega
    rw [e, Finset.sum_insert (by simp only [Finset.mem_insert, Finset.mem_Icc]; push_cast; omega),
      Finset.sum_insert (by simp only [Finset.mem_Icc]; push_cast; omega), ih, Finset.sum_range_succ]
    push_cast
    rw [← add_assoc (g 0), ← add_assoc (g _) (g _), add_comm]

/-- The factor of the order `j`: `Y_n^j` and `Y_n^{-j}` together. -/
noncomputable def fac (j : Nat) : ℝ := if j = 0 then 1 else 2

theorem harmonic_neg_add (n : Nat) (j : Nat) (a : ℝ) (x : V3) : ((a : ℝ) : ℂ) * harmonic n ((j : Int) + 1) x + (a : ℂ) * harmonic n (-((j : Int) + 1)) x =
    ((2 * a * (harmonicPos n (j + 1) x).re : ℝ) : ℂ) := by
  unfold harmonic
  rw [if_pos (by omega), if_neg (by omega), show ((j : Int) + 1).natAbs = j + 1 by omega, show (-((j : Int) + 1)).natAbs = j + 1 by omega]
  apply Complex.ext <;> simp
  ring

theorem harmonicPos_zero_im (n : Nat) (x : V3) : (harmonicPos n 0 x).im = 0 := by
  rw [harmonicPos_im, ci_zero, mul_zero]

/-- Real form of a series with equal coefficients for `m` and `-m`. -/
theorem series_eq (N : Nat) (w : Nat → ℝ) (c : Nat → Nat → ℝ) (x : V3) : harmonicSeries N w (fun n m => c n m.natAbs) x =
    ((∑ j ∈ Finset.range N, ∑ k ∈ Finset.range (N - j), fac j * (w (j + k) * c (j + k) j * (harmonicPos (j + k) j x).re) : ℝ) : ℂ) := by
  have e1 : ∀ n : Nat, ∑ m ∈ Finset.Icc (-(n : Int)) n, ((w n * c n m.natAbs : ℝ) : ℂ) * harmonic n m x =
      ((∑ j ∈ Finset.range (n + 1), fac j * (w n * c n j * (harmonicPos n j x).re) : ℝ) : ℂ) := by
    intro n
    rw [sum_orders, Finset.sum_range_succ']
    have h0 : ((w n * c n (0 : Int).natAbs : ℝ) : ℂ) * harmonic n 0 x = ((fac 0 * (w n * c n 0 * (harmonicPos n 0 x).re) : ℝ) : ℂ) := by
      unfold harmonic fac
      apply Complex.ext <;> simp [harmonicPos_zero_im]
    rw [h0, Complex.ofReal_add, add_comm]
    congr 1
    rw [Complex.ofReal_sum]
    refine Finset.sum_congr rfl fun j _ => ?_
    have h1 := harmonic_neg_add n j (w n * c n (j + 1)) x
    rw [show ((j : Int) + 1).natAbs = j + 1 by omega, show (-((j : Int) + 1)).natAbs = j + 1 by omega, h1]
    congr 1
    unfold fac
    rw [if_neg (by omega)]; ring
  unfold harmonicSeries
  rw [Finset.sum_congr rfl fun n _ => e1 n, ← Complex.ofReal_sum]
  congr 1
  rw [Finset.sum_comm' (s' := fun j => Finset.Ico j N) (t' := Finset.range N)]
  · refine Finset.sum_congr rfl fun j _ => ?_
    rw [Finset.sum_Ico_eq_sum_range]
  · intro a b; simp only [Finset.mem_range, Finset.mem_Ico]; omega

theorem idx_lt {n j N : Nat} (hj : j ≤ n) (hn : n < N) : n * (n + 1) + j < N * N := by
  nlinarith [Nat.mul_le_mul (show n + 1 ≤ N by omega) (show n + 1 ≤ N by omega)]

theorem sum_split {N j : Nat} (h : j + 1 < N) (f : Nat → ℝ) : ∑ k ∈ Finset.range (N - j), f k =
    f 0 + f 1 + ∑ k ∈ Finset.range (N - (j + 2)), f (k + 2) := by
  rw [show N - j = N - (j + 2) + 1 + 1 by omega, Finset.sum_range_succ', Finset.sum_range_succ']
  simp only [Nat.zero_add]; ring

end Sph
end Bembel
