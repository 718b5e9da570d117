import Verif.Lemmas.H2Product
/-!
# Property theorem C39 (adjointness): the transformations before and after the coupling blocks
-/

namespace Bembel.Props

open Finset Bembel.H2

namespace H2Adjoint

variable {R : Type} [CommRing R]

theorem forwardLoop_sizes (junk : Nat → Nat → R) {np nc : Nat} (hnp : 0 < np) {transfer : EMat R}
    (h1 : transfer.rows = np) (h2 : transfer.cols = 4 * np) (steps : Nat) : ∀ (C : Nat) (X : EMat R),
    X.rows = nc * np → X.cols = 4 ^ steps * C →
    ∃ fw, forwardLoop junk np nc transfer steps X = some fw ∧ fw.length = steps + 1 ∧
      ∀ s ≤ steps, ∃ Y, fw[s]? = some Y ∧ Y.rows = nc * np ∧ Y.cols = 4 ^ (steps - s) * C := by
  induction steps with
  | zero =>
    intro C X hr hc
    refine ⟨[X], rfl, rfl, fun s hs => ?_⟩
    obtain rfl : s = 0 := by omega
    exact ⟨X, rfl, hr, hc⟩
  | succ n ih =>
    intro C X hr hc
    obtain ⟨Y, e, g1, g2, -⟩ := forwardStep_eq junk hnp h1 h2 hr (C := 4 ^ n * C) (by rw [hc]; ring)
    obtain ⟨fw, f1, f2, f3⟩ := ih C Y g1 g2
    refine ⟨X :: fw, ?_, by rw [List.length_cons, f2], ?_⟩
    · rw [forwardLoop, e]
      simp only [Option.bind_eq_bind, Option.bind_some]
      rw [f1]
      rfl
    · intro s hs
      cases s with
      | zero => exact ⟨X, rfl, hr, hc⟩
      | succ s =>
        obtain ⟨Z, z1, z2, z3⟩ := f3 s (by omega)
        exact ⟨Z, by simpa using z1, z2, by rw [z3]; congr 2; omega⟩

theorem loop_adjoint (junk junk' : Nat → Nat → R) {np nc : Nat} (hnp : 0 < np) (hnc : 0 < nc) {transfer : EMat R}
    (h1 : transfer.rows = np) (h2 : transfer.cols = 4 * np) (steps : Nat) :
    ∀ (C : Nat) (X : EMat R) (bw : List (EMat R)), X.rows = nc * np → X.cols = 4 ^ steps * C → bw.length = steps + 1 →
    (∀ s ≤ steps, ∃ Y, bw[s]? = some Y ∧ Y.rows = nc * np ∧ Y.cols = 4 ^ (steps - s) * C) →
    ∃ fw Z, forwardLoop junk np nc transfer steps X = some fw ∧ backwardLoop junk' np nc transfer bw = some Z ∧
      Z.rows = nc * np ∧ Z.cols = 4 ^ steps * C ∧ (List.zipWith pairing fw bw).sum = pairing X Z := by
  induction steps with
  | zero =>
    intro C X bw hr hc hlen hbw
    obtain ⟨Y, rfl⟩ := List.length_eq_one_iff.1 hlen
    obtain ⟨Y', e, f1, f2⟩ := hbw 0 le_rfl
    simp only [List.getElem?_cons_zero, Option.some_inj] at e
    subst e
    exact ⟨[X], Y, rfl, rfl, f1, f2, by simp⟩
  | succ n ih =>
    intro C X bw hr hc hlen hbw
    obtain ⟨A, Y, rest, rfl⟩ : ∃ X Y rest, bw = X :: Y :: rest := by
      match bw, hlen with
      | X :: Y :: rest, _ => exact ⟨X, Y, rest, rfl⟩
    obtain ⟨A', e, a1, a2⟩ := hbw 0 (by omega)
    simp only [List.getElem?_cons_zero, Option.some_inj] at e
    subst e
    obtain ⟨F, fe, g1, g2, g3⟩ := forwardStep_eq junk hnp h1 h2 hr (C := 4 ^ n * C) (by rw [hc]; ring)
    obtain ⟨fw, Z, e1, e2, e3, e4, e5⟩ := ih C F (Y :: rest) g1 g2 (by simpa using hlen) (by
      intro s hs
      obtain ⟨W, w1, w2, w3⟩ := hbw (s + 1) (by omega)
      exact ⟨W, by simpa using w1, w2, by rw [w3]; congr 2; omega⟩)
    obtain ⟨S, s1, s2, s3, s4⟩ := backwardStep_eq junk' hnp h1 h2 e3 e4
    have hcols : A.cols = 4 * (4 ^ n * C) := by rw [a2]; simp only [Nat.sub_zero]; ring
    have hrows : 0 < nc * np := Nat.mul_pos hnc hnp
    have hresh : S.reshape A.rows A.cols = some ⟨A.rows, A.cols, fun i j =>
        S.at' ((j * A.rows + i) % S.rows) ((j * A.rows + i) / S.rows)⟩ := by
      unfold EMat.reshape
      rw [if_pos]
      rw [a1, hcols, s2, s3]
      nlinarith
    have hadd : A.add ⟨A.rows, A.cols, fun i j => S.at' ((j * A.rows + i) % S.rows) ((j * A.rows + i) / S.rows)⟩ =
        some ⟨A.rows, A.cols, fun i j => A.at' i j + S.at' ((j * A.rows + i) % S.rows) ((j * A.rows + i) / S.rows)⟩ := by
      unfold EMat.add
      rw [if_pos ⟨rfl, rfl⟩]
    refine ⟨X :: fw, ⟨A.rows, A.cols, fun i j => A.at' i j + S.at' ((j * A.rows + i) % S.rows) ((j * A.rows + i) / S.rows)⟩,
      ?_, ?_, a1, by rw [a2, Nat.sub_zero], ?_⟩
    · rw [forwardLoop, fe]
      simp only [Option.bind_eq_bind, Option.bind_some]
      rw [e1]
      rfl
    · rw [backwardLoop, e2]
      simp only [Option.bind_eq_bind, Option.bind_some]
      rw [s1]
      simp only [Option.bind_some]
      rw [hresh]
      simp only [Option.bind_some]
      rw [hadd]
    · rw [List.zipWith_cons_cons, List.sum_cons, e5]
      unfold pairing
      simp only [mul_add, Finset.sum_add_distrib]
      congr 1
      rw [g1, g2, hr, show X.cols = 4 ^ n * C * 4 by rw [hc]; ring, sum_range_mul nc np, sum_range_mul nc np]
      apply Finset.sum_congr rfl
      intro j hj
      have hj := mem_range.1 hj
      have hin : ∀ b < np, j * np + b < nc * np := by
        intro b hb
        have : (j + 1) * np ≤ nc * np := Nat.mul_le_mul_right _ (by omega)
        have e2 : (j + 1) * np = j * np + np := by ring
        omega
      have hread : ∀ b < np, ∀ k < 4 ^ n * C, ∀ q < 4,
          S.at' (((k * 4 + q) * A.rows + (j * np + b)) % S.rows) (((k * 4 + q) * A.rows + (j * np + b)) / S.rows) =
          ∑ a ∈ range np, transfer.at' a (q * np + b) * Z.at' (j * np + a) k := by
        intro b hb k hk q hq
        have ee : (k * 4 + q) * A.rows + (j * np + b) = (q * (nc * np) + (j * np + b)) + 4 * (nc * np) * k := by
          rw [a1]; ring
        have hlt : q * (nc * np) + (j * np + b) < 4 * (nc * np) := by
          have h3 : (q + 1) * (nc * np) ≤ 4 * (nc * np) := Nat.mul_le_mul_right _ (by omega)
          have e2 : (q + 1) * (nc * np) = q * (nc * np) + nc * np := by ring
          have := hin b hb
          omega
        rw [ee, s2, Nat.add_mul_mod_self_left, Nat.mod_eq_of_lt hlt,
          Nat.add_mul_div_left _ _ (by omega), Nat.div_eq_of_lt hlt, Nat.zero_add]
        exact s4 q hq j hj b hb k hk
      have hL : ∀ a ∈ range np, ∑ k ∈ range (4 ^ n * C), F.at' (j * np + a) k * Z.at' (j * np + a) k =
          ∑ k ∈ range (4 ^ n * C), ∑ q ∈ range 4, ∑ b ∈ range np,
            transfer.at' a (q * np + b) * X.at' (j * np + b) (4 * k + q) * Z.at' (j * np + a) k := by
        intro a ha
        apply Finset.sum_congr rfl
        intro k hk
        rw [g3 j hj a (mem_range.1 ha) k (mem_range.1 hk), Finset.sum_mul]
        apply Finset.sum_congr rfl
        intro q _
        rw [Finset.sum_mul]
      have hR : ∀ b ∈ range np, ∑ K ∈ range (4 ^ n * C * 4), X.at' (j * np + b) K *
            S.at' ((K * A.rows + (j * np + b)) % S.rows) ((K * A.rows + (j * np + b)) / S.rows) =
          ∑ k ∈ range (4 ^ n * C), ∑ q ∈ range 4, ∑ a ∈ range np,
            transfer.at' a (q * np + b) * X.at' (j * np + b) (4 * k + q) * Z.at' (j * np + a) k := by
        intro b hb
        rw [sum_range_mul]
        apply Finset.sum_congr rfl
        intro k hk
        apply Finset.sum_congr rfl
        intro q hq
        rw [hread b (mem_range.1 hb) k (mem_range.1 hk) q (mem_range.1 hq), Finset.mul_sum]
        apply Finset.sum_congr rfl
        intro a _
        rw [Nat.mul_comm k 4]
        ring
      rw [Finset.sum_congr rfl hL, Finset.sum_congr rfl hR]
      rw [Finset.sum_comm]
      conv_rhs => rw [Finset.sum_comm]
      apply Finset.sum_congr rfl
      intro k _
      rw [Finset.sum_comm]
      conv_rhs => rw [Finset.sum_comm]
      apply Finset.sum_congr rfl
      intro q _
      exact Finset.sum_comm

end H2Adjoint

section
variable {R : Type} [CommRing R]

/-- C39: the transformations before and after the coupling blocks are adjoint to each other.  For all moment and
transfer matrices with fitting sizes, every vector `x` (the columns of `X`, one per finest cluster) and all
coefficients `bw` (one matrix per level, one column per cluster), both transformations succeed, the forward
transformation of `x` has one coefficient matrix for each of `bw`, and
`⟨forward x, bw⟩ = ⟨x, backward bw⟩`.  Uninitialised memory (`junk`, `junk'`) does not matter. -/
theorem C39_adjoint (junk junk' : Nat → Nat → R) (np nc mc C steps : Nat) (hnp : 0 < np) (hnc : 0 < nc) (hmc : 0 < mc)
    (moment transfer X : EMat R) (bw : List (EMat R))
    (hm : moment.rows = nc * np ∧ moment.cols = mc) (ht : transfer.rows = np ∧ transfer.cols = 4 * np)
    (hX : X.rows = mc ∧ X.cols = 4 ^ steps * C) (hlen : bw.length = steps + 1)
    (hbw : ∀ s ≤ steps, ∃ Y, bw[s]? = some Y ∧ Y.rows = nc * np ∧ Y.cols = 4 ^ (steps - s) * C) :
    ∃ fw y, forwardTransformation junk moment transfer steps X = some fw ∧
      backwardTransformation junk' moment transfer bw = some (mc * (4 ^ steps * C), y) ∧
      fw.length = bw.length ∧
      (∀ s ≤ steps, ∃ Y, fw[s]? = some Y ∧ Y.rows = nc * np ∧ Y.cols = 4 ^ (steps - s) * C) ∧
      (List.zipWith pairing fw bw).sum = ∑ k ∈ range (4 ^ steps * C), ∑ r ∈ range mc, X.at' r k * y (k * mc + r) := by
  have hmul : moment.mul X = some ⟨nc * np, 4 ^ steps * C, fun i j => ∑ k ∈ range mc, moment.at' i k * X.at' k j⟩ := by
    unfold EMat.mul
    rw [if_pos (by rw [hm.2, hX.1]), hm.1, hm.2, hX.2]
  obtain ⟨fw, Z, e1, e2, e3, e4, e5⟩ := H2Adjoint.loop_adjoint junk junk' hnp hnc ht.1 ht.2 steps C
    ⟨nc * np, 4 ^ steps * C, fun i j => ∑ k ∈ range mc, moment.at' i k * X.at' k j⟩ bw rfl rfl hlen hbw
  obtain ⟨fw', q1, q2, q3⟩ := H2Adjoint.forwardLoop_sizes junk (nc := nc) hnp ht.1 ht.2 steps C
    ⟨nc * np, 4 ^ steps * C, fun i j => ∑ k ∈ range mc, moment.at' i k * X.at' k j⟩ rfl rfl
  rw [e1, Option.some_inj] at q1
  subst q1
  have hmul2 : moment.tr.mul Z = some ⟨mc, 4 ^ steps * C, fun i j => ∑ k ∈ range (nc * np), moment.at' k i * Z.at' k j⟩ := by
    unfold EMat.mul EMat.tr
    rw [if_pos (by simp only [hm.1, e3])]
    simp only [hm.1, hm.2, e4]
  refine ⟨fw, fun s => ∑ k ∈ range (nc * np), moment.at' k (s % mc) * Z.at' k (s / mc), ?_, ?_, by rw [q2, hlen], q3, ?_⟩
  · unfold forwardTransformation
    rw [ht.1, hm.1, hmul]
    simp only [Nat.mul_div_cancel _ hnp, Option.bind_eq_bind, Option.bind_some, Int.toNat_natCast]
    exact e1
  · unfold backwardTransformation
    rw [ht.1, hm.1]
    simp only [Nat.mul_div_cancel _ hnp, Option.bind_eq_bind]
    rw [e2]
    simp only [Option.bind_some]
    rw [hmul2]
    rfl
  · rw [e5]
    unfold pairing
    simp only
    rw [Finset.sum_comm]
    apply Finset.sum_congr rfl
    intro k _
    have hd : ∀ r ∈ range mc, X.at' r k * ∑ i ∈ range (nc * np), moment.at' i ((k * mc + r) % mc) * Z.at' i ((k * mc + r) / mc) =
        ∑ i ∈ range (nc * np), moment.at' i r * X.at' r k * Z.at' i k := by
      intro r hr
      have hr := mem_range.1 hr
      rw [Nat.mul_comm k, Nat.mul_add_mod, Nat.mod_eq_of_lt hr, Nat.mul_add_div hmc, Nat.div_eq_of_lt hr, Nat.add_zero,
        Finset.mul_sum]
      apply Finset.sum_congr rfl
      intro i _
      ring
    rw [Finset.sum_congr rfl hd, Finset.sum_comm]
    apply Finset.sum_congr rfl
    intro i _
    rw [Finset.sum_mul]

/-- A case that meets the hypotheses: two points, one component, three unknowns per finest cluster, two levels of
transfer, one patch. -/
example : ∃ (moment transfer X : EMat Int) (bw : List (EMat Int)), (moment.rows = 1 * 2 ∧ moment.cols = 3) ∧
    (transfer.rows = 2 ∧ transfer.cols = 4 * 2) ∧ (X.rows = 3 ∧ X.cols = 4 ^ 2 * 1) ∧ bw.length = 2 + 1 ∧
    ∀ s ≤ 2, ∃ Y, bw[s]? = some Y ∧ Y.rows = 1 * 2 ∧ Y.cols = 4 ^ (2 - s) * 1 := by
  refine ⟨⟨2, 3, fun i j => i + 2 * j⟩, ⟨2, 8, fun i j => i - j⟩, ⟨3, 16, fun i j => i * j⟩,
    [⟨2, 16, fun i j => i + j⟩, ⟨2, 4, fun i j => i - j⟩, ⟨2, 1, fun i _ => i⟩], ⟨rfl, rfl⟩, ⟨rfl, rfl⟩, ⟨rfl, rfl⟩, rfl, ?_⟩
  intro s hs
  have : s = 0 ∨ s = 1 ∨ s = 2 := by omega
  rcases this with rfl | rfl | rfl
  · exact ⟨_, rfl, rfl, rfl⟩
  · exact ⟨_, rfl, rfl, rfl⟩
  · exact ⟨_, rfl, rfl, rfl⟩

end

end Bembel.Props
