import Verif.Model.H2Product
import Verif.Spec.H2
import Mathlib.Algebra.BigOperators.Ring.Finset
import Mathlib.Tactic.Ring
import Mathlib.Tactic.Linarith
/-!
# Lemmas about the forward and backward transformation
-/

namespace Bembel
namespace H2

open Finset

variable {R : Type} [CommRing R]

theorem sum_range_mul {M : Type} [AddCommMonoid M] (m n : Nat) (f : Nat → M) :
    ∑ i ∈ range (m * n), f i = ∑ q ∈ range m, ∑ b ∈ range n, f (q * n + b) := by
  induction m with
  | zero => simp
  | succ m ih => rw [Nat.succ_mul, Finset.sum_range_add, ih, Finset.sum_range_succ]

theorem foldlM_block {α : Type} (n : Nat) (f : α → Nat → Option α) (Q : Nat → α → Prop) (s : α) (h0 : Q 0 s)
    (hs : ∀ j < n, ∀ x, Q j x → ∃ y, f x j = some y ∧ Q (j + 1) y) :
    ∃ y, (List.range n).foldlM f s = some y ∧ Q n y := by
  induction n with
  | zero => exact ⟨s, rfl, h0⟩
  | succ n ih =>
    obtain ⟨y, h1, h2⟩ := ih fun j hj => hs j (by omega)
    obtain ⟨z, h3, h4⟩ := hs n (by omega) y h2
    refine ⟨z, ?_, h4⟩
    rw [List.range_succ, List.foldlM_append, h1]
    simp [h3]

theorem reshape4 {X : EMat R} (hr : 0 < X.rows) (q i k : Nat) (hi : i < X.rows) :
    X.at' ((k * (4 * X.rows) + (q * X.rows + i)) % X.rows) ((k * (4 * X.rows) + (q * X.rows + i)) / X.rows) =
      X.at' i (4 * k + q) := by
  have e : k * (4 * X.rows) + (q * X.rows + i) = i + X.rows * (4 * k + q) := by ring
  rw [e, Nat.add_mul_mod_self_left, Nat.add_mul_div_left _ _ hr, Nat.mod_eq_of_lt hi, Nat.div_eq_of_lt hi, Nat.zero_add]

theorem forwardStep_eq (junk : Nat → Nat → R) {np nc C : Nat} (hnp : 0 < np) {transfer X : EMat R} (h1 : transfer.rows = np)
    (h2 : transfer.cols = 4 * np) (h3 : X.rows = nc * np) (h4 : X.cols = 4 * C) :
    ∃ Y, forwardStep junk np nc transfer X = some Y ∧ Y.rows = nc * np ∧ Y.cols = C ∧
      ∀ j < nc, ∀ a < np, ∀ k < C, Y.at' (j * np + a) k =
        ∑ q ∈ range 4, ∑ b ∈ range np, transfer.at' a (q * np + b) * X.at' (j * np + b) (4 * k + q) := by
  unfold forwardStep
  have hresh : X.reshape (4 * X.rows) (X.cols / 4) = some ⟨4 * X.rows, X.cols / 4, fun i j =>
      X.at' ((j * (4 * X.rows) + i) % X.rows) ((j * (4 * X.rows) + i) / X.rows)⟩ := by
    unfold EMat.reshape
    rw [if_pos]
    rw [h4]
    simp only [Nat.mul_div_cancel_left _ (show 0 < 4 by omega)]
    nlinarith
  rw [hresh]
  simp only [Option.bind_eq_bind, Option.bind_some]
  have hC : X.cols / 4 = C := by rw [h4]; omega
  rw [hC]
  have key := foldlM_block nc (fun (transferred : EMat R) j => do
    let b0 ← EMat.block ⟨4 * X.rows, C, fun i j => X.at' ((j * (4 * X.rows) + i) % X.rows) ((j * (4 * X.rows) + i) / X.rows)⟩
      ((j + 0 * nc) * np) 0 np C
    let b1 ← EMat.block ⟨4 * X.rows, C, fun i j => X.at' ((j * (4 * X.rows) + i) % X.rows) ((j * (4 * X.rows) + i) / X.rows)⟩
      ((j + 1 * nc) * np) 0 np C
    let b2 ← EMat.block ⟨4 * X.rows, C, fun i j => X.at' ((j * (4 * X.rows) + i) % X.rows) ((j * (4 * X.rows) + i) / X.rows)⟩
      ((j + 2 * nc) * np) 0 np C
    let b3 ← EMat.block ⟨4 * X.rows, C, fun i j => X.at' ((j * (4 * X.rows) + i) % X.rows) ((j * (4 * X.rows) + i) / X.rows)⟩
      ((j + 3 * nc) * np) 0 np C
    let prod ← transfer.mul (EMat.vcat4 b0 b1 b2 b3)
    transferred.setBlock (j * np) 0 np C prod)
    (fun m Y => Y.rows = nc * np ∧ Y.cols = C ∧ ∀ j < m, ∀ a < np, ∀ k < C, Y.at' (j * np + a) k =
        ∑ q ∈ range 4, ∑ b ∈ range np, transfer.at' a (q * np + b) * X.at' (j * np + b) (4 * k + q))
    ⟨4 * X.rows / 4, C, junk⟩ ⟨by simp only [h3]; omega, rfl, fun j hj => absurd hj (Nat.not_lt_zero _)⟩ ?_
  · obtain ⟨Y, e, f1, f2, f3⟩ := key
    exact ⟨Y, e, f1, f2, f3⟩
  · rintro j hj Y ⟨f1, f2, f3⟩
    have hjn : (j + 1) * np ≤ nc * np := Nat.mul_le_mul_right _ (by omega)
    have hb : ∀ q < 4, EMat.block (R := R) ⟨4 * X.rows, C, fun i j => X.at' ((j * (4 * X.rows) + i) % X.rows)
        ((j * (4 * X.rows) + i) / X.rows)⟩ ((j + q * nc) * np) 0 np C = some ⟨np, C, fun a b =>
          X.at' ((((0 + b) * (4 * X.rows) + ((j + q * nc) * np + a))) % X.rows)
            ((((0 + b) * (4 * X.rows) + ((j + q * nc) * np + a))) / X.rows)⟩ := by
      intro q hq
      unfold EMat.block
      rw [if_pos]
      simp only [h3]
      refine ⟨?_, by omega⟩
      have : (q + 1) * (nc * np) ≤ 4 * (nc * np) := Nat.mul_le_mul_right _ (by omega)
      have e1 : (j + q * nc) * np + np = (j + 1) * np + q * (nc * np) := by ring
      rw [e1]
      have e2 : (q + 1) * (nc * np) = q * (nc * np) + nc * np := by ring
      omega
    rw [hb 0 (by omega), hb 1 (by omega), hb 2 (by omega), hb 3 (by omega)]
    simp only [Option.bind_eq_bind, Option.bind_some]
    have hmul : ∀ (B : EMat R), B.rows = 4 * np → transfer.mul B =
        some ⟨np, B.cols, fun i j => ∑ k ∈ range (4 * np), transfer.at' i k * B.at' k j⟩ := by
      intro B hB
      unfold EMat.mul
      rw [if_pos (by rw [h2, hB]), h1, h2]
    rw [hmul _ (by simp only [EMat.vcat4]; omega)]
    simp only [Option.bind_some]
    unfold EMat.setBlock
    rw [if_pos (by refine ⟨?_, ?_, rfl, rfl⟩ <;> simp only [f1, f2] <;> nlinarith)]
    refine ⟨_, rfl, f1, f2, ?_⟩
    intro j' hj' a ha k hk
    simp only
    by_cases hjj : j' = j
    · subst hjj
      rw [if_pos (by omega)]
      simp only [EMat.vcat4, Nat.sub_zero, Nat.zero_add]
      rw [sum_range_mul]
      have ea : j' * np + a - j' * np = a := by omega
      rw [ea]
      apply Finset.sum_congr rfl
      intro q hq
      apply Finset.sum_congr rfl
      intro b hb'
      have hq := mem_range.1 hq
      have hb' := mem_range.1 hb'
      congr 1
      have hr : 0 < X.rows := by rw [h3]; have := Nat.mul_pos (show 0 < nc by omega) hnp; exact this
      have hjb : j' * np + b < X.rows := by
        have e2 : (j' + 1) * np = j' * np + np := by ring
        rw [h3]; omega
      have er : ∀ q, (j' + q * nc) * np + b = q * X.rows + (j' * np + b) := by
        intro q; rw [h3]; ring
      have hq4 : q = 0 ∨ q = 1 ∨ q = 2 ∨ q = 3 := by omega
      have main : X.at' ((k * (4 * X.rows) + ((j' + q * nc) * np + b)) % X.rows)
          ((k * (4 * X.rows) + ((j' + q * nc) * np + b)) / X.rows) = X.at' (j' * np + b) (4 * k + q) := by
        rw [er q]
        exact reshape4 hr q _ k hjb
      rw [← main]
      rcases hq4 with rfl | rfl | rfl | rfl
      · rw [if_pos (by omega)]
        simp
      · rw [if_neg (by omega), if_pos (by omega)]
        rw [show 1 * np + b - np = b by omega]
      · rw [if_neg (by omega), if_neg (by omega), if_pos (by omega)]
        rw [show 2 * np + b - np - np = b by omega]
      · rw [if_neg (by omega), if_neg (by omega), if_neg (by omega)]
        rw [show 3 * np + b - np - np - np = b by omega]
    · have hlt : j' < j := by omega
      rw [if_neg ?_]
      · exact f3 j' hlt a ha k hk
      · rintro ⟨⟨h, -⟩, -⟩
        have : (j' + 1) * np ≤ j * np := Nat.mul_le_mul_right _ (by omega)
        have e2 : (j' + 1) * np = j' * np + np := by ring
        omega

theorem split_idx {np nc i : Nat} (hnp : 0 < np) (hi : i < nc * np) : i / np < nc ∧ i % np < np ∧ i = i / np * np + i % np := by
  refine ⟨?_, Nat.mod_lt _ hnp, ?_⟩
  · rw [Nat.div_lt_iff_lt_mul hnp]; exact hi
  · rw [Nat.mul_comm]; exact (Nat.div_add_mod i np).symm

/-- What the forward transformation computes: the coefficients in the nested cluster bases. -/
theorem forwardLoop_eq (junk : Nat → Nat → R) {np nc mc : Nat} (hnp : 0 < np) (hmc : 0 < mc) {moment transfer : EMat R}
    (h1 : transfer.rows = np) (h2 : transfer.cols = 4 * np) (x : Nat → R) (steps : Nat) : ∀ (l C : Nat) (X : EMat R),
    X.rows = nc * np → X.cols = 4 ^ steps * C →
    (∀ i < nc * np, ∀ k < 4 ^ steps * C, X.at' i k =
      ∑ r ∈ range (mc * 4 ^ l), clusterBasis np mc moment transfer l i r * x (k * (mc * 4 ^ l) + r)) →
    ∃ fw, forwardLoop junk np nc transfer steps X = some fw ∧ fw.length = steps + 1 ∧
      ∀ s ≤ steps, ∃ Y, fw[s]? = some Y ∧ Y.rows = nc * np ∧ Y.cols = 4 ^ (steps - s) * C ∧
        ∀ i < nc * np, ∀ k < 4 ^ (steps - s) * C, Y.at' i k =
          ∑ r ∈ range (mc * 4 ^ (l + s)), clusterBasis np mc moment transfer (l + s) i r * x (k * (mc * 4 ^ (l + s)) + r) := by
  induction steps with
  | zero =>
    intro l C X hr hc hX
    refine ⟨[X], rfl, rfl, ?_⟩
    intro s hs
    obtain rfl : s = 0 := by omega
    exact ⟨X, rfl, hr, hc, hX⟩
  | succ n ih =>
    intro l C X hr hc hX
    have hc' : X.cols = 4 * (4 ^ n * C) := by rw [hc]; ring
    obtain ⟨Y, e, g1, g2, g3⟩ := forwardStep_eq junk hnp h1 h2 hr hc'
    have hY : ∀ i < nc * np, ∀ k < 4 ^ n * C, Y.at' i k =
        ∑ r ∈ range (mc * 4 ^ (l + 1)), clusterBasis np mc moment transfer (l + 1) i r * x (k * (mc * 4 ^ (l + 1)) + r) := by
      intro i hi k hk
      obtain ⟨d1, d2, d3⟩ := split_idx hnp hi
      conv_lhs => rw [d3]
      rw [g3 _ d1 _ d2 k hk]
      have ew : mc * 4 ^ (l + 1) = 4 * (mc * 4 ^ l) := by ring
      rw [ew, sum_range_mul]
      have hw : 0 < mc * 4 ^ l := by positivity
      apply Finset.sum_congr rfl
      intro q hq
      have hq := mem_range.1 hq
      have step : ∀ b ∈ range np, transfer.at' (i % np) (q * np + b) * X.at' (i / np * np + b) (4 * k + q) =
          ∑ s ∈ range (mc * 4 ^ l), transfer.at' (i % np) (q * np + b) *
            (clusterBasis np mc moment transfer l (i / np * np + b) s * x ((4 * k + q) * (mc * 4 ^ l) + s)) := by
        intro b hb
        have hb := mem_range.1 hb
        have hib : i / np * np + b < nc * np := by
          have : (i / np + 1) * np ≤ nc * np := Nat.mul_le_mul_right _ (by omega)
          have e2 : (i / np + 1) * np = i / np * np + np := by ring
          omega
        rw [hX _ hib _ (by rw [← hc, hc']; omega), Finset.mul_sum]
      rw [Finset.sum_congr rfl step, Finset.sum_comm]
      apply Finset.sum_congr rfl
      intro s hs
      have hs := mem_range.1 hs
      rw [clusterBasis]
      have ed : (q * (mc * 4 ^ l) + s) / (mc * 4 ^ l) = q := by
        rw [Nat.mul_comm q, Nat.mul_add_div hw, Nat.div_eq_of_lt hs, Nat.add_zero]
      have em : (q * (mc * 4 ^ l) + s) % (mc * 4 ^ l) = s := by
        rw [Nat.mul_comm q, Nat.mul_add_mod, Nat.mod_eq_of_lt hs]
      rw [ed, em, Finset.sum_mul]
      apply Finset.sum_congr rfl
      intro b _
      have ex : k * (4 * (mc * 4 ^ l)) + (q * (mc * 4 ^ l) + s) = (4 * k + q) * (mc * 4 ^ l) + s := by ring
      rw [ex, mul_assoc]
    obtain ⟨fw, f1, f2, f3⟩ := ih (l + 1) C Y g1 g2 hY
    refine ⟨X :: fw, ?_, by rw [List.length_cons, f2], ?_⟩
    · rw [forwardLoop, e]
      simp only [Option.bind_eq_bind, Option.bind_some]
      rw [f1]
      rfl
    · intro s hs
      cases s with
      | zero => exact ⟨X, rfl, hr, hc, hX⟩
      | succ s =>
        obtain ⟨Z, z1, z2, z3, z4⟩ := f3 s (by omega)
        refine ⟨Z, by simpa using z1, z2, ?_, ?_⟩
        · rw [z3]; congr 2; omega
        · intro i hi k hk
          rw [z4 i hi k (by rw [show n - s = n + 1 - (s + 1) by omega]; exact hk)]
          rw [show l + 1 + s = l + (s + 1) by omega]

theorem backwardStep_eq (junk : Nat → Nat → R) {np nc C : Nat} (hnp : 0 < np) {transfer Z : EMat R} (h1 : transfer.rows = np)
    (h2 : transfer.cols = 4 * np) (h3 : Z.rows = nc * np) (h4 : Z.cols = C) :
    ∃ Y, backwardStep junk np nc transfer Z = some Y ∧ Y.rows = 4 * (nc * np) ∧ Y.cols = C ∧
      ∀ q < 4, ∀ j < nc, ∀ b < np, ∀ k < C, Y.at' (q * (nc * np) + (j * np + b)) k =
        ∑ a ∈ range np, transfer.at' a (q * np + b) * Z.at' (j * np + a) k := by
  unfold backwardStep
  have key := foldlM_block nc (fun (transferred : EMat R) j => do
    let zb ← Z.block (j * np) 0 np Z.cols
    let prod ← transfer.tr.mul zb
    let b0 ← prod.block (0 * np) 0 np prod.cols
    let transferred ← transferred.setBlock ((j + 0 * nc) * np) 0 np prod.cols b0
    let b1 ← prod.block (1 * np) 0 np prod.cols
    let transferred ← transferred.setBlock ((j + 1 * nc) * np) 0 np prod.cols b1
    let b2 ← prod.block (2 * np) 0 np prod.cols
    let transferred ← transferred.setBlock ((j + 2 * nc) * np) 0 np prod.cols b2
    let b3 ← prod.block (3 * np) 0 np prod.cols
    transferred.setBlock ((j + 3 * nc) * np) 0 np prod.cols b3)
    (fun m Y => Y.rows = 4 * (nc * np) ∧ Y.cols = C ∧ ∀ q < 4, ∀ j < m, ∀ b < np, ∀ k < C,
      Y.at' (q * (nc * np) + (j * np + b)) k = ∑ a ∈ range np, transfer.at' a (q * np + b) * Z.at' (j * np + a) k)
    ⟨4 * Z.rows, Z.cols, junk⟩ ⟨by simp only [h3], h4, fun q hq j hj => absurd hj (Nat.not_lt_zero _)⟩ ?_
  · obtain ⟨Y, e, f1, f2, f3⟩ := key
    exact ⟨Y, e, f1, f2, f3⟩
  · rintro j hj Y ⟨f1, f2, f3⟩
    have hjn : (j + 1) * np ≤ nc * np := Nat.mul_le_mul_right _ (by omega)
    have ej1 : (j + 1) * np = j * np + np := by ring
    have hzb : Z.block (j * np) 0 np Z.cols = some ⟨np, C, fun a b => Z.at' (j * np + a) (0 + b)⟩ := by
      unfold EMat.block
      rw [if_pos (by rw [h3]; omega), h4]
    have hmul : transfer.tr.mul ⟨np, C, fun a b => Z.at' (j * np + a) (0 + b)⟩ = some ⟨4 * np, C, fun i k =>
        ∑ a ∈ range np, transfer.at' a i * Z.at' (j * np + a) (0 + k)⟩ := by
      unfold EMat.mul EMat.tr
      simp only [h1, h2, if_true]
    have hb : ∀ q < 4, EMat.block (R := R) ⟨4 * np, C, fun i k => ∑ a ∈ range np, transfer.at' a i * Z.at' (j * np + a) (0 + k)⟩
        (q * np) 0 np C = some ⟨np, C, fun b k => ∑ a ∈ range np, transfer.at' a (q * np + b) * Z.at' (j * np + a) (0 + (0 + k))⟩ := by
      intro q hq
      unfold EMat.block
      rw [if_pos (by
        have : (q + 1) * np ≤ 4 * np := Nat.mul_le_mul_right _ (by omega)
        have e2 : (q + 1) * np = q * np + np := by ring
        simp only; omega)]
    have hset : ∀ q < 4, ∀ (f g : Nat → Nat → R),
        EMat.setBlock ⟨Y.rows, Y.cols, f⟩ ((j + q * nc) * np) 0 np C ⟨np, C, g⟩ = some ⟨Y.rows, Y.cols, fun a b =>
          if ((j + q * nc) * np ≤ a ∧ a < (j + q * nc) * np + np) ∧ (0 ≤ b ∧ b < 0 + C) then g (a - (j + q * nc) * np) (b - 0)
          else f a b⟩ := by
      intro q hq f g
      unfold EMat.setBlock
      rw [if_pos]
      refine ⟨?_, by simp only; omega, rfl, rfl⟩
      simp only [f1]
      have : (q + 1) * (nc * np) ≤ 4 * (nc * np) := Nat.mul_le_mul_right _ (by omega)
      have e1 : (j + q * nc) * np + np = (j + 1) * np + q * (nc * np) := by ring
      have e2 : (q + 1) * (nc * np) = q * (nc * np) + nc * np := by ring
      omega
    rw [hzb]
    simp only [Option.bind_eq_bind, Option.bind_some]
    rw [hmul]
    simp only [Option.bind_some]
    rw [hb 0 (by omega), hb 1 (by omega), hb 2 (by omega), hb 3 (by omega)]
    simp only [Option.bind_some]
    rw [hset 0 (by omega)]
    simp only [Option.bind_some]
    rw [hset 1 (by omega)]
    simp only [Option.bind_some]
    rw [hset 2 (by omega)]
    simp only [Option.bind_some]
    rw [hset 3 (by omega)]
    refine ⟨_, rfl, f1, f2, ?_⟩
    intro q hq j' hj' b hb' k hk
    simp only [Nat.zero_add, Nat.sub_zero]
    have er : ∀ q, (j + q * nc) * np = q * (nc * np) + j * np := by intro q; ring
    simp only [er]
    have hj'n : (j' + 1) * np ≤ nc * np := Nat.mul_le_mul_right _ (by omega)
    have ej' : (j' + 1) * np = j' * np + np := by ring
    by_cases hjj : j' = j
    · subst hjj
      generalize nc * np = w at *
      generalize j' * np = y at *
      have hq4 : q = 0 ∨ q = 1 ∨ q = 2 ∨ q = 3 := by omega
      rcases hq4 with rfl | rfl | rfl | rfl
      · rw [if_neg (by omega), if_neg (by omega), if_neg (by omega), if_pos (by omega)]
        rw [show 0 * w + (y + b) - (0 * w + y) = b by omega]
      · rw [if_neg (by omega), if_neg (by omega), if_pos (by omega)]
        rw [show 1 * w + (y + b) - (1 * w + y) = b by omega]
      · rw [if_neg (by omega), if_pos (by omega)]
        rw [show 2 * w + (y + b) - (2 * w + y) = b by omega]
      · rw [if_pos (by omega)]
        rw [show 3 * w + (y + b) - (3 * w + y) = b by omega]
    · have hlt : j' < j := by omega
      have hle : (j' + 1) * np ≤ j * np := Nat.mul_le_mul_right _ (by omega)
      rw [← f3 q hq j' hlt b hb' k hk]
      generalize nc * np = w at *
      generalize j * np = y at *
      generalize j' * np = y' at *
      have hq4 : q = 0 ∨ q = 1 ∨ q = 2 ∨ q = 3 := by omega
      rcases hq4 with rfl | rfl | rfl | rfl <;>
        rw [if_neg (by omega), if_neg (by omega), if_neg (by omega), if_neg (by omega)]

/-- What the backward transformation computes before the moment matrices are applied. -/
theorem backwardLoop_eq (junk : Nat → Nat → R) {np nc mc : Nat} (hnp : 0 < np) (hnc : 0 < nc) (hmc : 0 < mc)
    {moment transfer : EMat R} (h1 : transfer.rows = np) (h2 : transfer.cols = 4 * np) (steps : Nat) :
    ∀ (l C : Nat) (bw : List (EMat R)), bw.length = steps + 1 →
    (∀ s ≤ steps, ∃ Y, bw[s]? = some Y ∧ Y.rows = nc * np ∧ Y.cols = 4 ^ (steps - s) * C) →
    ∃ Z, backwardLoop junk np nc transfer bw = some Z ∧ Z.rows = nc * np ∧ Z.cols = 4 ^ steps * C ∧
      ∀ k < 4 ^ steps * C, ∀ t < mc * 4 ^ l,
        (∑ i ∈ range (nc * np), clusterBasis np mc moment transfer l i t * Z.at' i k) =
        ∑ s ∈ range (steps + 1), ∑ i ∈ range (nc * np),
          clusterBasis np mc moment transfer (l + s) i ((k * (mc * 4 ^ l) + t) % (mc * 4 ^ (l + s))) *
            ((bw[s]?.map fun Y => Y.at' i ((k * (mc * 4 ^ l) + t) / (mc * 4 ^ (l + s)))).getD 0) := by
  induction steps with
  | zero =>
    intro l C bw hlen hbw
    obtain ⟨Y, e, f1, f2⟩ := hbw 0 le_rfl
    obtain ⟨X, rfl⟩ := List.length_eq_one_iff.1 hlen
    simp only [List.getElem?_cons_zero, Option.some_inj] at e
    subst e
    refine ⟨X, rfl, f1, f2, ?_⟩
    intro k hk t ht
    rw [Finset.sum_range_one]
    have hw : 0 < mc * 4 ^ l := by positivity
    simp only [Nat.add_zero, List.getElem?_cons_zero, Option.map_some, Option.getD_some]
    rw [Nat.mul_comm k, Nat.mul_add_mod, Nat.mod_eq_of_lt ht, Nat.mul_add_div hw, Nat.div_eq_of_lt ht, Nat.add_zero]
  | succ n ih =>
    intro l C bw hlen hbw
    obtain ⟨X, Y, rest, rfl⟩ : ∃ X Y rest, bw = X :: Y :: rest := by
      match bw, hlen with
      | X :: Y :: rest, _ => exact ⟨X, Y, rest, rfl⟩
    obtain ⟨X', e, f1, f2⟩ := hbw 0 (by omega)
    simp only [List.getElem?_cons_zero, Option.some_inj] at e
    subst e
    obtain ⟨Z, z1, z2, z3, z4⟩ := ih (l + 1) C (Y :: rest) (by simpa using hlen) (by
      intro s hs
      obtain ⟨W, w1, w2, w3⟩ := hbw (s + 1) (by omega)
      exact ⟨W, by simpa using w1, w2, by rw [w3]; congr 2; omega⟩)
    obtain ⟨S, s1, s2, s3, s4⟩ := backwardStep_eq junk hnp h1 h2 z2 z3
    have hcols : X.cols = 4 * (4 ^ n * C) := by rw [f2]; simp only [Nat.sub_zero]; ring
    have hrows : 0 < nc * np := Nat.mul_pos hnc hnp
    have hresh : S.reshape X.rows X.cols = some ⟨X.rows, X.cols, fun i j =>
        S.at' ((j * X.rows + i) % S.rows) ((j * X.rows + i) / S.rows)⟩ := by
      unfold EMat.reshape
      rw [if_pos]
      rw [f1, hcols, s2, s3]
      nlinarith
    have hadd : X.add ⟨X.rows, X.cols, fun i j => S.at' ((j * X.rows + i) % S.rows) ((j * X.rows + i) / S.rows)⟩ =
        some ⟨X.rows, X.cols, fun i j => X.at' i j + S.at' ((j * X.rows + i) % S.rows) ((j * X.rows + i) / S.rows)⟩ := by
      unfold EMat.add
      rw [if_pos ⟨rfl, rfl⟩]
    refine ⟨⟨X.rows, X.cols, fun i j => X.at' i j + S.at' ((j * X.rows + i) % S.rows) ((j * X.rows + i) / S.rows)⟩,
      ?_, f1, by rw [f2, Nat.sub_zero], ?_⟩
    · rw [backwardLoop, z1]
      simp only [Option.bind_eq_bind, Option.bind_some]
      rw [s1]
      simp only [Option.bind_some]
      rw [hresh]
      simp only [Option.bind_some]
      rw [hadd]
    · intro k hk t ht
      have hw : 0 < mc * 4 ^ l := by positivity
      simp only
      rw [Finset.sum_range_succ', add_comm]
      simp only [mul_add, Finset.sum_add_distrib]
      congr 1
      · simp only [Nat.add_zero, List.getElem?_cons_zero, Option.map_some, Option.getD_some]
        rw [Nat.mul_comm k, Nat.mul_add_mod, Nat.mod_eq_of_lt ht, Nat.mul_add_div hw, Nat.div_eq_of_lt ht, Nat.add_zero]
      · -- column k is column k / 4 of the father level, son k % 4
        have hk4 : k / 4 < 4 ^ n * C := by
          have : k < 4 * (4 ^ n * C) := by rw [← hcols, f2, Nat.sub_zero]; exact hk
          omega
        have hq : k % 4 < 4 := Nat.mod_lt _ (by omega)
        have hk' : k = 4 * (k / 4) + k % 4 := (Nat.div_add_mod k 4).symm
        have hread : ∀ i < nc * np, S.at' ((k * X.rows + i) % S.rows) ((k * X.rows + i) / S.rows) =
            ∑ a ∈ range np, transfer.at' a (k % 4 * np + i % np) * Z.at' (i / np * np + a) (k / 4) := by
          intro i hi
          obtain ⟨d1, d2, d3⟩ := split_idx hnp hi
          have e1 : k * X.rows + i = (k % 4 * (nc * np) + i) + 4 * (nc * np) * (k / 4) := by
            rw [f1]; conv_lhs => rw [hk']
            ring
          have hlt : k % 4 * (nc * np) + i < 4 * (nc * np) := by
            have : (k % 4 + 1) * (nc * np) ≤ 4 * (nc * np) := Nat.mul_le_mul_right _ (by omega)
            have e2 : (k % 4 + 1) * (nc * np) = k % 4 * (nc * np) + nc * np := by ring
            omega
          rw [e1, s2, Nat.add_mul_mod_self_left, Nat.mod_eq_of_lt hlt,
            Nat.add_mul_div_left _ _ (by omega), Nat.div_eq_of_lt hlt, Nat.zero_add]
          rw [← s4 _ hq _ d1 _ d2 _ hk4, ← d3]
        have ht' : k % 4 * (mc * 4 ^ l) + t < mc * 4 ^ (l + 1) := by
          have : (k % 4 + 1) * (mc * 4 ^ l) ≤ 4 * (mc * 4 ^ l) := Nat.mul_le_mul_right _ (by omega)
          have e2 : (k % 4 + 1) * (mc * 4 ^ l) = k % 4 * (mc * 4 ^ l) + mc * 4 ^ l := by ring
          have e3 : mc * 4 ^ (l + 1) = 4 * (mc * 4 ^ l) := by ring
          omega
        have hz := z4 (k / 4) hk4 _ ht'
        have epos : k / 4 * (mc * 4 ^ (l + 1)) + (k % 4 * (mc * 4 ^ l) + t) = k * (mc * 4 ^ l) + t := by
          conv_rhs => rw [hk']
          ring
        rw [epos] at hz
        have hgoal : ∑ s ∈ range (n + 1), ∑ i ∈ range (nc * np), clusterBasis np mc moment transfer (l + (s + 1)) i
              ((k * (mc * 4 ^ l) + t) % (mc * 4 ^ (l + (s + 1)))) *
            (((X :: Y :: rest)[s + 1]?.map fun W => W.at' i ((k * (mc * 4 ^ l) + t) / (mc * 4 ^ (l + (s + 1))))).getD 0) =
            ∑ i ∈ range (nc * np), clusterBasis np mc moment transfer (l + 1) i (k % 4 * (mc * 4 ^ l) + t) * Z.at' i (k / 4) := by
          rw [hz]
          apply Finset.sum_congr rfl
          intro s _
          simp only [List.getElem?_cons_succ]
          rw [show l + (s + 1) = l + 1 + s by omega]
        rw [hgoal]
        have ed : (k % 4 * (mc * 4 ^ l) + t) / (mc * 4 ^ l) = k % 4 := by
          rw [Nat.mul_comm (k % 4), Nat.mul_add_div hw, Nat.div_eq_of_lt ht, Nat.add_zero]
        have em : (k % 4 * (mc * 4 ^ l) + t) % (mc * 4 ^ l) = t := by
          rw [Nat.mul_comm (k % 4), Nat.mul_add_mod, Nat.mod_eq_of_lt ht]
        rw [sum_range_mul, sum_range_mul]
        apply Finset.sum_congr rfl
        intro j hj
        have hj := mem_range.1 hj
        have hin : ∀ b < np, j * np + b < nc * np := by
          intro b hb
          have : (j + 1) * np ≤ nc * np := Nat.mul_le_mul_right _ (by omega)
          have e2 : (j + 1) * np = j * np + np := by ring
          omega
        have hdm : ∀ b < np, (j * np + b) / np = j ∧ (j * np + b) % np = b := by
          intro b hb
          rw [Nat.mul_comm j, Nat.mul_add_div hnp, Nat.div_eq_of_lt hb, Nat.add_zero, Nat.mul_add_mod, Nat.mod_eq_of_lt hb]
          exact ⟨rfl, rfl⟩
        have lhs : ∀ b ∈ range np, clusterBasis np mc moment transfer l (j * np + b) t *
            S.at' ((k * X.rows + (j * np + b)) % S.rows) ((k * X.rows + (j * np + b)) / S.rows) =
            ∑ a ∈ range np, clusterBasis np mc moment transfer l (j * np + b) t *
              (transfer.at' a (k % 4 * np + b) * Z.at' (j * np + a) (k / 4)) := by
          intro b hb
          have hb := mem_range.1 hb
          rw [hread _ (hin b hb), (hdm b hb).1, (hdm b hb).2, Finset.mul_sum]
        rw [Finset.sum_congr rfl lhs, Finset.sum_comm]
        apply Finset.sum_congr rfl
        intro a ha
        have ha := mem_range.1 ha
        rw [clusterBasis, ed, em, (hdm a ha).1, (hdm a ha).2, Finset.sum_mul]
        apply Finset.sum_congr rfl
        intro b _
        ring

end H2
end Bembel
