import Mathlib.Tactic.Ring
import Mathlib.Tactic.FieldSimp
import Verif.Model.Moments
import Verif.Spec.H2
import Verif.Lemmas.H2Transform
import Verif.Props.Multipole
import Verif.Props.Bernstein
/-! # Lemmas for the moment matrices -/

namespace Bembel
namespace H2
open Finset Mesh Props

/-- Horizontal position of element number `k`. -/
def mx (k : Nat) : Nat := if h : k = 0 then 0 else 2 * mx (k / 4) + cornerX (k % 4)
decreasing_by omega

/-- Vertical position of element number `k`. -/
def my (k : Nat) : Nat := if h : k = 0 then 0 else 2 * my (k / 4) + cornerY (k % 4)
decreasing_by omega

theorem mx_eq (k : Nat) : mx k = 2 * mx (k / 4) + cornerX (k % 4) := by
  by_cases h : k = 0
  · subst h
    rw [show mx 0 = 0 by rw [mx, dif_pos rfl]]; rfl
  · rw [mx, dif_neg h]

theorem my_eq (k : Nat) : my k = 2 * my (k / 4) + cornerY (k % 4) := by
  by_cases h : k = 0
  · subst h
    rw [show my 0 = 0 by rw [my, dif_pos rfl]]; rfl
  · rw [my, dif_neg h]

theorem mx_digit (i c : Nat) (hc : c < 4) : mx (4 * i + c) = 2 * mx i + cornerX c := by
  rw [mx_eq, show (4 * i + c) / 4 = i by omega, show (4 * i + c) % 4 = c by omega]

theorem my_digit (i c : Nat) (hc : c < 4) : my (4 * i + c) = 2 * my i + cornerY c := by
  rw [my_eq, show (4 * i + c) / 4 = i by omega, show (4 * i + c) % 4 = c by omega]

theorem m_zero : mx 0 = 0 ∧ my 0 = 0 := by
  constructor
  · rw [mx, dif_pos rfl]
  · rw [my, dif_pos rfl]

theorem m_small (c : Nat) (hc : c < 4) : mx c = cornerX c ∧ my c = cornerY c := by
  have h1 := mx_digit 0 c hc
  have h2 := my_digit 0 c hc
  rw [m_zero.1] at h1
  rw [m_zero.2] at h2
  simp only [Nat.mul_zero, Nat.zero_add] at h1 h2
  exact ⟨h1, h2⟩

/-- Position in a cluster of twice the width. -/
theorem m_son (s : Nat) : ∀ c k, c < 4 → k < 4 ^ s → mx (c * 4 ^ s + k) = cornerX c * 2 ^ s + mx k ∧
    my (c * 4 ^ s + k) = cornerY c * 2 ^ s + my k := by
  induction s with
  | zero =>
    intro c k hc hk
    obtain rfl : k = 0 := by simpa using hk
    have := m_small c hc
    simp [this, m_zero]
  | succ s ih =>
    intro c k hc hk
    have hk' : k / 4 < 4 ^ s := by rw [pow_succ] at hk; omega
    obtain ⟨h1, h2⟩ := ih c (k / 4) hc hk'
    have e : c * 4 ^ (s + 1) + k = 4 * (c * 4 ^ s + k / 4) + k % 4 := by
      rw [pow_succ, ← Nat.mul_assoc, Nat.mul_add]; omega
    have hm : k % 4 < 4 := by omega
    rw [e, mx_digit _ _ hm, my_digit _ _ hm, h1, h2, mx_eq k, my_eq k, pow_succ]
    constructor <;> ring

theorem m_lt (s k : Nat) (hk : k < 4 ^ s) : mx k < 2 ^ s ∧ my k < 2 ^ s := by
  induction s generalizing k with
  | zero =>
    obtain rfl : k = 0 := by simpa using hk
    simp [m_zero]
  | succ s ih =>
    have hk' : k / 4 < 4 ^ s := by rw [pow_succ] at hk; omega
    obtain ⟨h1, h2⟩ := ih (k / 4) hk'
    rw [mx_eq, my_eq, pow_succ]
    have : cornerX (k % 4) ≤ 1 ∧ cornerY (k % 4) ≤ 1 := by unfold cornerX cornerY; constructor <;> split <;> omega
    omega

theorem m_path (l : List Nat) (h : ∀ x ∈ l, x < 4) : mx (pathId 0 l) = posX l ∧ my (pathId 0 l) = posY l := by
  induction l with
  | nil => exact m_zero
  | cons c l ih =>
    obtain ⟨h1, h2⟩ := ih fun x hx => h x (by simp [hx])
    have hc := h c (by simp)
    rw [pathId, mx_digit _ _ hc, my_digit _ _ hc, h1, h2]
    exact ⟨rfl, rfl⟩

/-! ## The index loop -/

theorem morton_inner (j : Nat) (st : (Nat → Nat) × (Nat → Nat)) (h : ∀ k < 4 ^ j, st.1 k = mx k ∧ st.2 k = my k) :
    ∀ n ≤ 4 ^ j, ∀ k, k < 4 ^ j ∨ k < 4 * n →
    let st' := (List.range n).foldl (fun (st : (Nat → Nat) × (Nat → Nat)) i =>
      let s := st.1
      let t := st.2
      let s := assignV s (4 * i) (2 * s i)
      let s := assignV s (4 * i + 1) (2 * s i + 1)
      let s := assignV s (4 * i + 2) (2 * s i + 1)
      let s := assignV s (4 * i + 3) (2 * s i)
      let t := assignV t (4 * i) (2 * t i)
      let t := assignV t (4 * i + 1) (2 * t i)
      let t := assignV t (4 * i + 2) (2 * t i + 1)
      let t := assignV t (4 * i + 3) (2 * t i + 1)
      (s, t)) st
    st'.1 k = mx k ∧ st'.2 k = my k := by
  intro n
  induction n with
  | zero =>
    intro _ k hk
    simp only [List.range_zero, List.foldl_nil]
    exact h k (by omega)
  | succ n ih =>
    intro hn k hk
    have ih' := ih (by omega)
    simp only [List.range_succ, List.foldl_append, List.foldl_cons, List.foldl_nil]
    generalize hS : (List.range n).foldl (fun (st : (Nat → Nat) × (Nat → Nat)) i =>
      let s := st.1
      let t := st.2
      let s := assignV s (4 * i) (2 * s i)
      let s := assignV s (4 * i + 1) (2 * s i + 1)
      let s := assignV s (4 * i + 2) (2 * s i + 1)
      let s := assignV s (4 * i + 3) (2 * s i)
      let t := assignV t (4 * i) (2 * t i)
      let t := assignV t (4 * i + 1) (2 * t i)
      let t := assignV t (4 * i + 2) (2 * t i + 1)
      let t := assignV t (4 * i + 3) (2 * t i + 1)
      (s, t)) st = S at ih'
    simp only at ih'
    have hS := ih' n (by omega)
    have hfix : ∀ (v : Nat → Nat) (k x : Nat), v k = x → assignV v k x = v := by
      intro v k x hv
      funext a
      unfold assignV
      split
      · next h => rw [h, hv]
      · rfl
    -- the read entry does not change during the four assignments
    have key : ∀ (v : Nat → Nat) (m : Nat → Nat) (bit : Nat → Nat), v n = m n → m 0 = 0 → bit 0 = 0 →
        (∀ c < 4, m (4 * n + c) = 2 * m n + bit c) →
        (∀ k, (k < 4 ^ j ∨ k < 4 * n) → v k = m k) →
        ∀ k, (k < 4 ^ j ∨ k < 4 * (n + 1)) →
          assignV (assignV (assignV (assignV v (4 * n) (2 * v n)) (4 * n + 1)
            (2 * (assignV v (4 * n) (2 * v n)) n + bit 1)) (4 * n + 2)
            (2 * (assignV (assignV v (4 * n) (2 * v n)) (4 * n + 1)
            (2 * (assignV v (4 * n) (2 * v n)) n + bit 1)) n + bit 2)) (4 * n + 3)
            (2 * (assignV (assignV (assignV v (4 * n) (2 * v n)) (4 * n + 1)
            (2 * (assignV v (4 * n) (2 * v n)) n + bit 1)) (4 * n + 2)
            (2 * (assignV (assignV v (4 * n) (2 * v n)) (4 * n + 1)
            (2 * (assignV v (4 * n) (2 * v n)) n + bit 1)) n + bit 2)) n + bit 3) k = m k := by
      intro v m bit hv hm0 hb0 hd hall k hk
      have e0 : (assignV v (4 * n) (2 * v n)) n = m n := by
        unfold assignV
        split
        · next h' =>
          have : n = 0 := by omega
          subst this
          rw [hv, hm0]
        · exact hv
      rw [e0]
      have e1 : (assignV (assignV v (4 * n) (2 * v n)) (4 * n + 1) (2 * m n + bit 1)) n = m n := by
        rw [assignV, if_neg (by omega), e0]
      rw [e1]
      have e2 : (assignV (assignV (assignV v (4 * n) (2 * v n)) (4 * n + 1) (2 * m n + bit 1)) (4 * n + 2)
          (2 * m n + bit 2)) n = m n := by
        rw [assignV, if_neg (by omega), e1]
      rw [e2]
      have d0 := hd 0 (by omega)
      have d1 := hd 1 (by omega)
      have d2 := hd 2 (by omega)
      have d3 := hd 3 (by omega)
      rw [hb0, Nat.add_zero, Nat.add_zero] at d0
      unfold assignV
      by_cases h3 : k = 4 * n + 3
      · rw [if_pos h3, h3, d3]
      rw [if_neg h3]
      by_cases h2 : k = 4 * n + 2
      · rw [if_pos h2, h2, d2]
      rw [if_neg h2]
      by_cases h1 : k = 4 * n + 1
      · rw [if_pos h1, h1, d1]
      rw [if_neg h1]
      by_cases h0 : k = 4 * n
      · rw [if_pos h0, h0, d0, hv]
      rw [if_neg h0]
      exact hall k (by omega)
    refine ⟨?_, ?_⟩
    · exact key S.1 mx (fun c => if c = 1 ∨ c = 2 then 1 else 0) hS.1 m_zero.1 rfl (fun c hc => mx_digit n c hc)
        (fun k hk => (ih' k hk).1) k hk
    · exact key S.2 my (fun c => if c = 2 ∨ c = 3 then 1 else 0) hS.2 m_zero.2 rfl (fun c hc => my_digit n c hc)
        (fun k hk => (ih' k hk).2) k hk

theorem morton_eq (r : Nat) : ∀ k < 4 ^ r, (mortonIndices r).1 k = mx k ∧ (mortonIndices r).2 k = my k := by
  unfold mortonIndices
  induction r with
  | zero =>
    intro k hk
    obtain rfl : k = 0 := by simpa using hk
    simp [m_zero]
  | succ r ih =>
    intro k hk
    rw [List.range_succ, List.foldl_append, List.foldl_cons, List.foldl_nil, pow_mul, show 2 ^ 2 = 4 from rfl]
    exact morton_inner r _ ih (4 ^ r) le_rfl k (Or.inr (by rw [pow_succ] at hk; omega))

/-! ## One-dimensional moments -/

theorem quad_fold (add : (Nat → ℝ) → ℝ → ℝ → (Nat → ℝ)) (b : Nat → ℝ → ℝ) (p : Nat)
    (hadd : ∀ v s x m, m ≤ p → add v s x m = v m + s * b m x) (N : Nat) (s xi : Nat → ℝ) (m : Nat) (hm : m ≤ p) :
    (List.range N).foldl (fun v k => add v (s k) (xi k)) (fun _ => 0) m = ∑ k ∈ range N, s k * b m (xi k) := by
  induction N with
  | zero => simp
  | succ N ih => rw [List.range_succ, List.foldl_append, List.foldl_cons, List.foldl_nil, hadd _ _ _ _ hm, ih, sum_range_succ]

theorem moment1D_entry (pts junk : Nat → Nat → ℝ) (Q : Quad1 ℝ) (add : (Nat → ℝ) → ℝ → ℝ → (Nat → ℝ)) (b : Nat → ℝ → ℝ)
    (scale : ℝ → ℝ) (p r np : Nat) (hadd : ∀ v s x m, m ≤ p → add v s x m = v m + s * b m x)
    (hx : Distinct (pts np) np) (i j m : Nat) (hi : i < np) (hj : j < 2 ^ r) (hm : m ≤ p) :
    (moment1DLoop pts junk Q add scale p r np).at' i (j * (p + 1) + m) =
      ∑ k ∈ range Q.size, scale (Q.w k) * lagrange (pts np) np i ((j + Q.xi k) / 2 ^ r) * b m (Q.xi k) := by
  have h := foldl_assign (K := ℝ) (fun b : Nat × Nat × Nat => b.1) (fun b => b.2.1 * (p + 1) + b.2.2)
    (fun e => (List.range Q.size).foldl (fun v k =>
      add v (scale (Q.w k) * evaluatePolynomial pts np (fun a => (computeLagrangePolynomials pts np).at' a e.1)
        (1 / ((2 ^ r : Nat) : ℝ) * (e.2.1 + Q.xi k))) (Q.xi k)) (fun _ => 0) e.2.2)
    ((List.range np).flatMap fun i => (List.range (2 ^ r)).flatMap fun j => (List.range (p + 1)).map fun m => (i, j, m))
    junk (i, j, m)
    (by
      simp only [List.mem_flatMap, List.mem_map, List.mem_range]
      exact ⟨i, hi, j, hj, m, by omega, rfl⟩)
    (by
      rintro ⟨i', j', m'⟩ hb h1 h2
      simp only [List.mem_flatMap, List.mem_map, List.mem_range, Prod.mk.injEq] at hb
      obtain ⟨i1, hi1, j1, hj1, m1, hm1, rfl, rfl, rfl⟩ := hb
      simp only at h1 h2
      obtain ⟨rfl, rfl⟩ := pair_digits (p + 1) _ _ _ _ hm1 (by omega) h2
      rw [h1])
  simp only [List.foldl_flatMap, List.foldl_map] at h
  unfold moment1DLoop
  simp only
  rw [h, quad_fold add b p hadd _ _ _ _ hm]
  refine sum_congr rfl fun k _ => ?_
  rw [C40_lagrange pts np hx i hi]
  congr 3
  push_cast
  ring

/-! ## Two-dimensional moments -/

theorem moment2D_entry (m1 m2 : EMat ℝ) (junk : Nat → Nat → ℝ) (p r np i j k ix iy : Nat) (hi : i < np) (hj : j < np)
    (hk : k < 4 ^ r) (hx : ix ≤ p) (hy : iy ≤ p) :
    (moment2DComputer m1 m2 junk p r np).at' (i * np + j) ((p + 1) * (p + 1) * k + (iy * (p + 1) + ix)) =
      m1.at' i (mx k * (p + 1) + ix) * m2.at' j (my k * (p + 1) + iy) := by
  have hk' : k < 2 ^ r * 2 ^ r := by rw [← Nat.mul_pow]; exact hk
  have h := foldl_assign (K := ℝ) (fun b : Nat × Nat × Nat × Nat × Nat => b.1 * np + b.2.1)
    (fun b => (p + 1) * (p + 1) * b.2.2.1 + b.2.2.2.1 * (p + 1) + b.2.2.2.2)
    (fun b => m1.at' b.1 ((mortonIndices r).1 b.2.2.1 * (p + 1) + b.2.2.2.2) *
      m2.at' b.2.1 ((mortonIndices r).2 b.2.2.1 * (p + 1) + b.2.2.2.1))
    ((List.range np).flatMap fun i => (List.range np).flatMap fun j => (List.range (2 ^ r * 2 ^ r)).flatMap fun k =>
      (List.range (p + 1)).flatMap fun m1 => (List.range (p + 1)).map fun m2 => (i, j, k, m1, m2)) junk (i, j, k, iy, ix)
    (by
      simp only [List.mem_flatMap, List.mem_map, List.mem_range]
      exact ⟨i, hi, j, hj, k, hk', iy, by omega, ix, by omega, rfl⟩)
    (by
      rintro ⟨i', j', k', iy', ix'⟩ hb h1 h2
      simp only [List.mem_flatMap, List.mem_map, List.mem_range, Prod.mk.injEq] at hb
      obtain ⟨i1, hi1, j1, hj1, k1, hk1, iy1, hiy1, ix1, hix1, rfl, rfl, rfl, rfl, rfl⟩ := hb
      simp only at h1 h2
      obtain ⟨rfl, rfl⟩ := pair_digits np _ _ _ _ hj1 hj h1
      have b1 : iy1 * (p + 1) + ix1 < (p + 1) * (p + 1) := by nlinarith
      have b2 : iy * (p + 1) + ix < (p + 1) * (p + 1) := by nlinarith
      obtain ⟨rfl, e2⟩ := pair_digits ((p + 1) * (p + 1)) k1 _ k _ b1 b2
        (by rw [Nat.mul_comm, ← Nat.add_assoc, h2, Nat.mul_comm k, ← Nat.add_assoc])
      obtain ⟨rfl, rfl⟩ := pair_digits (p + 1) _ _ _ _ hix1 (by omega) e2
      rfl)
  simp only [List.foldl_flatMap, List.foldl_map] at h
  unfold moment2DComputer
  simp only
  rw [← Nat.add_assoc, h, (morton_eq r k hk).1, (morton_eq r k hk).2]

/-! ## Nested cluster bases -/

/-- If the finest cluster basis consists of functionals applied to the tensor Lagrange polynomials, so do all coarser
ones. -/
theorem nested_eq (pts junkE junkT : Nat → Nat → ℝ) (np pp r : Nat) (hx : Distinct (pts np) np) (mom : EMat ℝ)
    {ι : Type} (S : Finset ι) (W : ι → Nat → ℝ) (e : ι → ℝ × ℝ)
    (hm : ∀ i < np, ∀ j < np, ∀ k < 4 ^ r, ∀ m < pp, mom.at' (i * np + j) (pp * k + m) =
      ∑ q ∈ S, W q m * (lagrange (pts np) np i ((mx k + (e q).1) / 2 ^ r) * lagrange (pts np) np j ((my k + (e q).2) / 2 ^ r)))
    (d : Nat) : ∀ i < np, ∀ j < np, ∀ k < 4 ^ (r + d), ∀ m < pp,
      clusterBasis (np * np) (pp * 4 ^ r) mom (computeTransferMatrices pts junkE junkT np) d (i * np + j) (pp * k + m) =
      ∑ q ∈ S, W q m * (lagrange (pts np) np i ((mx k + (e q).1) / 2 ^ (r + d)) *
        lagrange (pts np) np j ((my k + (e q).2) / 2 ^ (r + d))) := by
  induction d with
  | zero => exact hm
  | succ d ih =>
    intro i hi j hj k hk m hm'
    have hpos : 0 < 4 ^ (r + d) := by positivity
    obtain ⟨c, k', hc, hk', rfl⟩ : ∃ c k', c < 4 ∧ k' < 4 ^ (r + d) ∧ k = c * 4 ^ (r + d) + k' := by
      refine ⟨k / 4 ^ (r + d), k % 4 ^ (r + d), ?_, Nat.mod_lt _ hpos, by rw [Nat.mul_comm]; exact (Nat.div_add_mod _ _).symm⟩
      rw [Nat.div_lt_iff_lt_mul hpos]
      rw [show r + (d + 1) = r + d + 1 by omega, pow_succ] at hk
      omega
    have hpp : 0 < pp := by omega
    have hsz : pp * 4 ^ r * 4 ^ d = pp * 4 ^ (r + d) := by rw [pow_add]; ring
    have hlt : pp * k' + m < pp * 4 ^ (r + d) := by nlinarith
    have hdiv : (pp * (c * 4 ^ (r + d) + k') + m) / (pp * 4 ^ r * 4 ^ d) = c := by
      rw [hsz, show pp * (c * 4 ^ (r + d) + k') + m = (pp * 4 ^ (r + d)) * c + (pp * k' + m) by ring,
        Nat.mul_add_div (by positivity), Nat.div_eq_of_lt hlt, Nat.add_zero]
    have hmod : (pp * (c * 4 ^ (r + d) + k') + m) % (pp * 4 ^ r * 4 ^ d) = pp * k' + m := by
      rw [hsz, show pp * (c * 4 ^ (r + d) + k') + m = (pp * 4 ^ (r + d)) * c + (pp * k' + m) by ring,
        Nat.mul_add_mod, Nat.mod_eq_of_lt hlt]
    have hij : i * np + j < np * np := by nlinarith
    rw [clusterBasis, hdiv, hmod, Nat.div_eq_of_lt hij, Nat.mod_eq_of_lt hij]
    -- split the sum over the interpolation points
    have hsplit : ∀ f : Nat → ℝ, ∑ b ∈ range (np * np), f b = ∑ a ∈ range np, ∑ b ∈ range np, f (a * np + b) := by
      intro f
      exact (sum_range_mul np np f)
    rw [hsplit]
    have h1 : ∀ a ∈ range np, ∀ b ∈ range np,
        (computeTransferMatrices pts junkE junkT np).at' (i * np + j) (c * (np * np) + (a * np + b)) *
          clusterBasis (np * np) (pp * 4 ^ r) mom (computeTransferMatrices pts junkE junkT np) d (0 * (np * np) + (a * np + b))
            (pp * k' + m) =
        ∑ q ∈ S, W q m * ((computeTransferMatrices pts junkE junkT np).at' (i * np + j) (c * (np * np) + (a * np + b)) *
          (lagrange (pts np) np a ((mx k' + (e q).1) / 2 ^ (r + d)) *
            lagrange (pts np) np b ((my k' + (e q).2) / 2 ^ (r + d)))) := by
      intro a ha b hb
      rw [Nat.zero_mul, Nat.zero_add, ih a (mem_range.mp ha) b (mem_range.mp hb) k' hk' m hm', mul_sum]
      exact sum_congr rfl fun q _ => by ring
    rw [sum_congr rfl fun a ha => sum_congr rfl fun b hb => h1 a ha b hb]
    rw [sum_congr rfl fun a _ => sum_comm, sum_comm]
    refine sum_congr rfl fun q _ => ?_
    simp only [← mul_sum]
    congr 1
    rw [← C41_reexpand pts junkE junkT np hx c i j hc hi hj]
    obtain ⟨q1, q2⟩ := m_son (r + d) c k' hc hk'
    rw [q1, q2]
    have hp : (2:ℝ) ^ (r + d) ≠ 0 := by positivity
    congr 2
    · rw [show r + (d + 1) = r + d + 1 by omega, pow_succ]; push_cast; field_simp; ring
    · rw [show r + (d + 1) = r + d + 1 by omega, pow_succ]; push_cast; field_simp; ring

/-- Components of a stacked moment matrix stay separate. -/
theorem nested_component (np2 mc : Nat) (mom tot transfer : EMat ℝ) (κ : Nat) (N : Nat)
    (h : ∀ i < np2, ∀ s < N, tot.at' (κ * np2 + i) s = mom.at' i s) (hmc : 0 < mc) (hN : mc ≤ N) (d : Nat) :
    ∀ i < np2, ∀ s < mc * 4 ^ d, clusterBasis np2 mc tot transfer d (κ * np2 + i) s =
      clusterBasis np2 mc mom transfer d i s := by
  induction d with
  | zero => intro i hi s hs; exact h i hi s (by rw [pow_zero, mul_one] at hs; omega)
  | succ d ih =>
    intro i hi s _
    rw [clusterBasis, clusterBasis]
    have hp : 0 < np2 := by omega
    have e1 : (κ * np2 + i) / np2 = κ := by rw [Nat.mul_comm, Nat.mul_add_div hp, Nat.div_eq_of_lt hi, Nat.add_zero]
    have e2 : (κ * np2 + i) % np2 = i := by rw [Nat.mul_comm, Nat.mul_add_mod, Nat.mod_eq_of_lt hi]
    rw [e1, e2, Nat.div_eq_of_lt hi, Nat.mod_eq_of_lt hi]
    refine sum_congr rfl fun b hb => ?_
    rw [ih b (mem_range.mp hb) _ (Nat.mod_lt _ (by positivity)), Nat.zero_mul, Nat.zero_add]

end H2
end Bembel
