import Verif.Lemmas.H2Transform
import Verif.Lemmas.Omp
import Verif.Props.BlockCluster
/-!
# Lemmas about the H2-matrix-vector product
-/

set_option linter.unusedSectionVars false

namespace Bembel
namespace H2

open Finset Mesh BlockCluster

variable {K R : Type} [CommRing R] (junk : Nat → Nat → R)

theorem sum_window {M : Type} [AddCommMonoid M] (N c0 c1 : Nat) (h01 : c0 ≤ c1) (h : c1 ≤ N) (f : Nat → M) :
    ∑ c ∈ range N, (if c0 ≤ c ∧ c < c1 then f c else 0) = ∑ r ∈ range (c1 - c0), f (c0 + r) := by
  rw [← Finset.sum_filter, ← Finset.sum_Ico_eq_sum_range]
  apply Finset.sum_congr _ fun _ _ => rfl
  ext c
  simp only [mem_filter, mem_range, mem_Ico]
  omega

/-- Everything that is needed to know about a leaf. -/
inductive LeafDesc (t : Mesh.Tree K) (pp : Nat) (minLevel : Int) (N steps mc C q : Nat) (leaf : BTree × EMat R) : Prop
  | dense (r0 r1 c0 c1 : Nat) (hcc : leaf.1.cc = .dense) (hr0 : rowStart t pp leaf.1 = some r0)
      (hr1 : rowEnd t pp leaf.1 = some r1) (hc0 : colStart t pp leaf.1 = some c0) (hc1 : colEnd t pp leaf.1 = some c1)
      (h1 : r0 ≤ r1) (h2 : r1 ≤ N) (h3 : c0 ≤ c1) (h4 : c1 ≤ N) (h5 : leaf.2.rows = r1 - r0) (h6 : leaf.2.cols = c1 - c0)
  | lowRank (a b : Addr) (fl : Nat) (hcc : leaf.1.cc = .lowRank) (h1 : leaf.1.cluster1 = some a)
      (h2 : leaf.1.cluster2 = some b) (hfl : (t.maxLevel : Int) - minLevel - (t.level a : Int) = fl) (hs : fl ≤ steps)
      (ha : t.id a < 4 ^ (steps - fl) * C) (hb : t.id b < 4 ^ (steps - fl) * C)
      (hr0 : rowStart t pp leaf.1 = some (t.id a * (mc * 4 ^ fl)))
      (hr1 : rowEnd t pp leaf.1 = some (t.id a * (mc * 4 ^ fl) + mc * 4 ^ fl))
      (hc0 : colStart t pp leaf.1 = some (t.id b * (mc * 4 ^ fl)))
      (hc1 : colEnd t pp leaf.1 = some (t.id b * (mc * 4 ^ fl) + mc * 4 ^ fl))
      (h5 : leaf.2.rows = q) (h6 : leaf.2.cols = q)

/-- Contribution of a leaf to matrix entry `(s, c)`. -/
def contrib (t : Mesh.Tree K) (pp : Nat) (minLevel : Int) (np mc : Nat) (mr mcol transfer : EMat R) (leaf : BTree × EMat R)
    (s c : Nat) : R :=
  match rowStart t pp leaf.1, rowEnd t pp leaf.1, colStart t pp leaf.1, colEnd t pp leaf.1 with
  | some r0, some r1, some c0, some c1 =>
    if r0 ≤ s ∧ s < r1 then
      if c0 ≤ c ∧ c < c1 then
        leafEntry np mc mr mcol transfer (leaf.1.cc = .dense) (leafLevel t minLevel leaf.1) leaf.2 (s - r0) (c - c0)
      else 0
    else 0
  | _, _, _, _ => 0

/-- The matrices have the sizes of the forward transformation. -/
def Shape (steps C q : Nat) (bw : List (EMat R)) : Prop :=
  bw.length = steps + 1 ∧ ∀ s ≤ steps, ∃ Y, bw[s]? = some Y ∧ Y.rows = q ∧ Y.cols = 4 ^ (steps - s) * C

/-- Part of the final result that comes from level `l` of the backward transformation. -/
def levelVal (np mc q : Nat) (mr transfer : EMat R) (bw : List (EMat R)) (l s : Nat) : R :=
  ∑ i ∈ range q, clusterBasis np mc mr transfer l i (s % (mc * 4 ^ l)) *
    ((bw[l]?.map fun Y => Y.at' i (s / (mc * 4 ^ l))).getD 0)

/-- Final contribution of the private memory of a thread. -/
def privVal (np mc q steps N : Nat) (mr transfer : EMat R) (p : Priv R N) : Fin N → R := fun s =>
  p.1 s + ∑ l ∈ range (steps + 1), levelVal np mc q mr transfer p.2 l s.1

theorem pow_split {steps fl : Nat} (h : fl ≤ steps) (mc C : Nat) : 4 ^ (steps - fl) * C * (mc * 4 ^ fl) = mc * (4 ^ steps * C) := by
  have : 4 ^ steps = 4 ^ (steps - fl) * 4 ^ fl := by rw [← pow_add]; congr 1; omega
  rw [this]; ring

theorem body_eq (H : Mat K R) {np nc mc C steps N : Nat} (hmc : 0 < mc) (hN : N = mc * (4 ^ steps * C)) (mr mcol : EMat R)
    (x : Nat → R) (fw : List (EMat R))
    (hfw : ∀ s ≤ steps, ∃ Y, fw[s]? = some Y ∧ Y.rows = nc * np ∧ Y.cols = 4 ^ (steps - s) * C ∧
        ∀ i < nc * np, ∀ k < 4 ^ (steps - s) * C, Y.at' i k =
          ∑ r ∈ range (mc * 4 ^ s), clusterBasis np mc mcol H.transfer s i r * x (k * (mc * 4 ^ s) + r))
    (leaf : BTree × EMat R) (hl : LeafDesc H.t H.pp H.minLevel N steps mc C (nc * np) leaf) (p : Priv R N)
    (hp : Shape steps C (nc * np) p.2) :
    ∃ p', leafBody H x fw leaf p = some p' ∧ Shape steps C (nc * np) p'.2 ∧
      privVal np mc (nc * np) steps N mr H.transfer p' = privVal np mc (nc * np) steps N mr H.transfer p +
        fun s => ∑ c ∈ range N, contrib H.t H.pp H.minLevel np mc mr mcol H.transfer leaf s.1 c * x c := by
  cases hl with
  | dense r0 r1 c0 c1 hcc hr0 hr1 hc0 hc1 h1 h2 h3 h4 h5 h6 =>
    unfold leafBody
    rw [hcc]
    simp only [hr0, hr1, hc0, hc1, Option.bind_eq_bind, Option.bind_some]
    rw [if_pos ⟨h1, h2, h3, h4, h5, h6⟩]
    refine ⟨_, rfl, hp, ?_⟩
    funext s
    simp only [privVal, Pi.add_apply]
    have : ∀ c, contrib H.t H.pp H.minLevel np mc mr mcol H.transfer leaf s.1 c * x c =
        if r0 ≤ s.1 ∧ s.1 < r1 then (if c0 ≤ c ∧ c < c1 then leaf.2.at' (s.1 - r0) (c - c0) * x c else 0) else 0 := by
      intro c
      unfold contrib
      rw [hr0, hr1, hc0, hc1, hcc]
      simp only [leafEntry]
      split_ifs <;> simp_all
    simp only [this]
    by_cases hs : r0 ≤ s.1 ∧ s.1 < r1
    · simp only [if_pos hs]
      rw [sum_window N c0 c1 h3 h4 fun c => leaf.2.at' (s.1 - r0) (c - c0) * x c, h6]
      simp only [Nat.add_sub_cancel_left]
      ring
    · simp only [if_neg hs, Finset.sum_const_zero, add_zero]
  | lowRank a b fl hcc h1 h2 hfl hs ha hb hr0 hr1 hc0 hc1 h5 h6 =>
    obtain ⟨bm, hbm, hbr, hbc⟩ := hp.2 fl hs
    obtain ⟨fm, hfm, hfr, hfc, hfv⟩ := hfw fl hs
    have hw : 0 < mc * 4 ^ fl := by positivity
    have hnum := pow_split hs mc C
    rw [← hN] at hnum
    have hrange : ∀ k < 4 ^ (steps - fl) * C, k * (mc * 4 ^ fl) + mc * 4 ^ fl ≤ N := by
      intro k hk
      have : (k + 1) * (mc * 4 ^ fl) ≤ 4 ^ (steps - fl) * C * (mc * 4 ^ fl) := Nat.mul_le_mul_right _ hk
      rw [hnum] at this
      rw [← Nat.succ_mul]; exact this
    have hbody : leafBody H x fw leaf p = some (p.1, p.2.set fl ⟨bm.rows, bm.cols, fun i j =>
        if j = H.t.id a then bm.at' i j + ∑ k ∈ range (nc * np), leaf.2.at' i k * fm.at' k (H.t.id b) else bm.at' i j⟩) := by
      unfold leafBody
      rw [hcc, h1, h2]
      simp only [hfl]
      rw [if_pos (by omega), Int.toNat_natCast, hbm, hfm]
      simp only [Option.bind_eq_bind, Option.bind_some]
      rw [if_pos ⟨by rw [hfc]; exact hb, by rw [h6, hfr]⟩]
      unfold EMat.addCol
      rw [if_pos ⟨by rw [hbc]; exact ha, by rw [h5, hbr]⟩, h6]
      rfl
    have hlen : fl < p.2.length := by rw [hp.1]; omega
    refine ⟨_, hbody, ⟨by rw [List.length_set]; exact hp.1, ?_⟩, ?_⟩
    · intro s hs'
      by_cases hsf : s = fl
      · subst hsf
        exact ⟨_, List.getElem?_set_self hlen, hbr, hbc⟩
      · rw [List.getElem?_set_ne (Ne.symm hsf)]
        exact hp.2 s hs'
    · funext s
      simp only [privVal, Pi.add_apply]
      rw [add_assoc]
      congr 1
      have hmem : fl ∈ range (steps + 1) := mem_range.2 (by omega)
      rw [← Finset.add_sum_erase _ _ hmem, ← Finset.add_sum_erase _ _ hmem]
      have herase : ∀ l ∈ (range (steps + 1)).erase fl, levelVal np mc (nc * np) mr H.transfer (p.2.set fl ⟨bm.rows, bm.cols,
          fun i j => if j = H.t.id a then bm.at' i j + ∑ k ∈ range (nc * np), leaf.2.at' i k * fm.at' k (H.t.id b)
            else bm.at' i j⟩) l s.1 = levelVal np mc (nc * np) mr H.transfer p.2 l s.1 := by
        intro l hl
        unfold levelVal
        rw [List.getElem?_set_ne (Ne.symm (Finset.ne_of_mem_erase hl))]
      rw [Finset.sum_congr rfl herase, add_right_comm]
      congr 1
      unfold levelVal
      rw [List.getElem?_set_self hlen, hbm]
      simp only [Option.map_some, Option.getD_some]
      -- the matrix entries of the block
      have hc : ∀ c, contrib H.t H.pp H.minLevel np mc mr mcol H.transfer leaf s.1 c * x c =
          if s.1 / (mc * 4 ^ fl) = H.t.id a then
            (if H.t.id b * (mc * 4 ^ fl) ≤ c ∧ c < H.t.id b * (mc * 4 ^ fl) + mc * 4 ^ fl then
              (∑ i ∈ range (nc * np), ∑ j ∈ range (nc * np), clusterBasis np mc mr H.transfer fl i (s.1 % (mc * 4 ^ fl)) *
                leaf.2.at' i j * clusterBasis np mc mcol H.transfer fl j (c - H.t.id b * (mc * 4 ^ fl))) * x c else 0) else 0 := by
        intro c
        unfold contrib
        rw [hr0, hr1, hc0, hc1]
        simp only
        have hiff : (H.t.id a * (mc * 4 ^ fl) ≤ s.1 ∧ s.1 < H.t.id a * (mc * 4 ^ fl) + mc * 4 ^ fl) ↔
            s.1 / (mc * 4 ^ fl) = H.t.id a := by
          rw [Nat.div_eq_iff hw]
          constructor <;> rintro ⟨h1, h2⟩ <;> constructor <;> omega
        by_cases hsa : s.1 / (mc * 4 ^ fl) = H.t.id a
        · rw [if_pos (hiff.2 hsa), if_pos hsa]
          by_cases hcb : H.t.id b * (mc * 4 ^ fl) ≤ c ∧ c < H.t.id b * (mc * 4 ^ fl) + mc * 4 ^ fl
          · rw [if_pos hcb, if_pos hcb]
            congr 1
            unfold leafEntry leafLevel
            rw [hcc, h1]
            simp only [reduceCtorEq, decide_false, Bool.false_eq_true, if_false, hfl, Int.toNat_natCast, h5, h6]
            have hmod : s.1 - H.t.id a * (mc * 4 ^ fl) = s.1 % (mc * 4 ^ fl) := by
              rw [Nat.mod_def, hsa, Nat.mul_comm]
            rw [hmod]
          · rw [if_neg hcb, if_neg hcb, zero_mul]
        · rw [if_neg (fun h => hsa (hiff.1 h)), if_neg hsa, zero_mul]
      simp only [hc]
      by_cases hsa : s.1 / (mc * 4 ^ fl) = H.t.id a
      · simp only [if_pos hsa]
        rw [sum_window N _ _ (by omega) (hrange _ hb)]
        simp only [Nat.add_sub_cancel_left, mul_add, Finset.sum_add_distrib]
        congr 1
        have e1 : ∀ i ∈ range (nc * np), clusterBasis np mc mr H.transfer fl i (s.1 % (mc * 4 ^ fl)) *
            ∑ k ∈ range (nc * np), leaf.2.at' i k * fm.at' k (H.t.id b) =
            ∑ r ∈ range (mc * 4 ^ fl), ∑ j ∈ range (nc * np), clusterBasis np mc mr H.transfer fl i (s.1 % (mc * 4 ^ fl)) *
              leaf.2.at' i j * clusterBasis np mc mcol H.transfer fl j r * x (H.t.id b * (mc * 4 ^ fl) + r) := by
          intro i _
          rw [Finset.sum_comm, Finset.mul_sum]
          apply Finset.sum_congr rfl
          intro k hk
          rw [hfv k (mem_range.1 hk) _ hb, Finset.mul_sum, Finset.mul_sum]
          apply Finset.sum_congr rfl
          intro r _
          ring
        rw [Finset.sum_congr rfl e1, Finset.sum_comm]
        apply Finset.sum_congr rfl
        intro r _
        rw [Finset.sum_mul]
        apply Finset.sum_congr rfl
        intro i _
        rw [Finset.sum_mul]
      · simp only [if_neg hsa, Finset.sum_const_zero, add_zero]

theorem fin_eq (H : Mat K R) {np nc mc C steps N : Nat} (hnp : 0 < np) (hnc : 0 < nc) (hmc : 0 < mc)
    (hN : N = mc * (4 ^ steps * C)) (mr : EMat R) (hmr : mr.rows = nc * np) (hmrc : mr.cols = mc)
    (ht : H.transfer.rows = np) (htc : H.transfer.cols = 4 * np) (p : Priv R N) (hp : Shape steps C (nc * np) p.2) :
    (do let v ← backwardTransformation junk mr H.transfer p.2
        if v.1 = N then some (fun s : Fin N => p.1 s + v.2 s.1) else none) =
      some (privVal np mc (nc * np) steps N mr H.transfer p) := by
  unfold backwardTransformation
  rw [ht, hmr]
  simp only [Nat.mul_div_cancel _ hnp]
  obtain ⟨Z, z1, z2, z3, z4⟩ := backwardLoop_eq junk (moment := mr) hnp hnc hmc ht htc steps 0 C p.2 hp.1 hp.2
  rw [z1]
  simp only [Option.bind_eq_bind, Option.bind_some]
  have hmul : mr.tr.mul Z = some ⟨mc, 4 ^ steps * C, fun i j => ∑ k ∈ range (nc * np), mr.at' k i * Z.at' k j⟩ := by
    unfold EMat.mul EMat.tr
    rw [if_pos (by simp only [hmr, z2])]
    simp only [hmr, hmrc, z3]
  rw [hmul]
  simp only [Option.bind_some]
  rw [if_pos hN.symm]
  congr 1
  funext s
  unfold privVal
  congr 1
  have hs : s.1 < mc * (4 ^ steps * C) := by rw [← hN]; exact s.2
  have h := z4 (s.1 / mc) (by rw [Nat.div_lt_iff_lt_mul hmc, Nat.mul_comm]; exact hs) (s.1 % mc)
    (by rw [pow_zero, Nat.mul_one]; exact Nat.mod_lt _ hmc)
  have e : s.1 / mc * (mc * 4 ^ 0) + s.1 % mc = s.1 := by
    rw [pow_zero, Nat.mul_one, Nat.mul_comm]; exact Nat.div_add_mod _ _
  rw [e] at h
  simp only [Nat.zero_add] at h
  exact h

theorem fw_eq {np nc mc C steps N : Nat} (hnp : 0 < np) (hmc : 0 < mc) (hC : 0 < C)
    (hN : N = mc * (4 ^ steps * C)) (mcol transfer : EMat R) (hmr : mcol.rows = nc * np) (hmrc : mcol.cols = mc)
    (ht : transfer.rows = np) (htc : transfer.cols = 4 * np) (x : Nat → R) (st : Int) (hst : st.toNat = steps) :
    ∃ m fw, EMat.reshape ⟨N, 1, fun k _ => x k⟩ mcol.cols (N / mcol.cols) = some m ∧
      forwardTransformation junk mcol transfer st m = some fw ∧ fw.length = steps + 1 ∧
      ∀ s ≤ steps, ∃ Y, fw[s]? = some Y ∧ Y.rows = nc * np ∧ Y.cols = 4 ^ (steps - s) * C ∧
        ∀ i < nc * np, ∀ k < 4 ^ (steps - s) * C, Y.at' i k =
          ∑ r ∈ range (mc * 4 ^ s), clusterBasis np mc mcol transfer s i r * x (k * (mc * 4 ^ s) + r) := by
  have hdiv : N / mc = 4 ^ steps * C := by rw [hN, Nat.mul_div_cancel_left _ hmc]
  refine ⟨⟨mc, 4 ^ steps * C, fun i j => x ((j * mc + i) % N)⟩, ?_⟩
  have hmul : mcol.mul ⟨mc, 4 ^ steps * C, fun i j => x ((j * mc + i) % N)⟩ = some ⟨nc * np, 4 ^ steps * C, fun i j =>
      ∑ k ∈ range mc, mcol.at' i k * x ((j * mc + k) % N)⟩ := by
    unfold EMat.mul
    rw [if_pos hmrc, hmr, hmrc]
  obtain ⟨fw, f1, f2, f3⟩ := forwardLoop_eq junk (moment := mcol) (nc := nc) hnp hmc ht htc x steps 0 C
    ⟨nc * np, 4 ^ steps * C, fun i j => ∑ k ∈ range mc, mcol.at' i k * x ((j * mc + k) % N)⟩ rfl rfl (by
      intro i _ k hk
      simp only [pow_zero, Nat.mul_one, clusterBasis]
      apply Finset.sum_congr rfl
      intro r hr
      have hr := mem_range.1 hr
      have : k * mc + r < N := by
        have h1 : (k + 1) * mc ≤ 4 ^ steps * C * mc := Nat.mul_le_mul_right _ hk
        have h2 : (k + 1) * mc = k * mc + mc := by ring
        rw [hN, Nat.mul_comm mc]; omega
      rw [Nat.mod_eq_of_lt this])
  refine ⟨fw, ?_, ?_, f2, ?_⟩
  · unfold EMat.reshape
    rw [hmrc, hdiv]
    simp only
    rw [if_pos (by rw [hN]; omega)]
  · unfold forwardTransformation
    rw [ht, hmr, hmul]
    simp only [Nat.mul_div_cancel _ hnp, Option.bind_eq_bind, Option.bind_some]
    rw [hst]; exact f1
  · intro s hs
    obtain ⟨Y, y1, y2, y3, y4⟩ := f3 s hs
    refine ⟨Y, y1, y2, y3, ?_⟩
    simpa only [Nat.zero_add] using y4

end H2
end Bembel
