import Verif.Lemmas.H2Product
/-!
# Property theorems C38, C39: the H2-matrix-vector product
-/

set_option linter.unusedSectionVars false

namespace Bembel.Props

open Finset Bembel.Mesh Bembel.Util Bembel.BlockCluster Bembel.H2

theorem pathId_lt {P l : Nat} {a : Addr} (h : a ∈ leaves P l) : pathId a.1 a.2 < P * 4 ^ l := by
  obtain ⟨A, B, hAB⟩ := List.append_of_mem h
  rw [← index_leaves hAB, ← leaves_length P l, hAB, List.length_append, List.length_cons]
  omega

section
variable {K R : Type} [Field K] [CharZero K] [CommRing R] {E : Type} [NormedAddCommGroup E]
  {P M : Nat} (hP : 0 < P) {H : Mat K R} (h2 : ∀ j ≤ M, ∀ a ∈ leaves P j, GoodNode H.t a)
  (h3 : H.t.nElements = P * 4 ^ M) (h4 : H.t.maxLevel = M) (h5 : H.t.nPatches = P) (h6 : Chain H.t.links (leaves P M))
  (h7 : ∀ b, H.t.refined b = true ↔ ∃ j < M, b ∈ leaves P j) {B : Addr → Ball E} {eta : ℝ} {np nc : Nat}
  (hw : WellFormed H B eta np nc)
include hP h2 h3 h4 h5 h6 h7 hw

theorem size_eq : H.pp * H.t.nElements = clusterSize H * (4 ^ ((H.t.maxLevel : Int) - H.minLevel).toNat * P) := by
  have hm := hw.minLevel
  obtain ⟨m, hm'⟩ : ∃ m : Nat, H.minLevel = m := ⟨H.minLevel.toNat, by omega⟩
  unfold clusterSize
  rw [h3, h4, hm', Int.toNat_natCast]
  have e : M = min m M + ((M : Int) - (m : Int)).toNat := by omega
  have : 4 ^ M = 4 ^ min m M * 4 ^ ((M : Int) - (m : Int)).toNat := by
    rw [← pow_add]; congr 1
  rw [this]; ring

theorem leaf_desc {i j : Nat} (hi' : i < H.vd) (hj : j < H.vd) {x : BTree × EMat R} (hx : x ∈ H.leaves i j) :
    LeafDesc H.t H.pp H.minLevel (H.pp * H.t.nElements) ((H.t.maxLevel : Int) - H.minLevel).toNat (clusterSize H) P
      (nc * np) x := by
  obtain ⟨f1, -⟩ := block_facts hP h2 h3 h4 h5 h6 h7 B eta H.minLevel hw.minLevel
  have hmem : x.1 ∈ leafPointers (initBlockClusterTree H.t B eta H.minLevel) := by
    rw [← hw.tree i hi' j hj]; exact List.mem_map_of_mem hx
  have hL := f1 _ hmem
  obtain ⟨a1, a2, -, a4, a5⟩ := cluster_iter hP h3 h4 h5 h6 h7 hL.c1
  obtain ⟨b1, b2, -, b4, b5⟩ := cluster_iter hP h3 h4 h5 h6 h7 hL.c2
  have e1 : rowStart H.t H.pp x.1 = some (H.pp * lo M x.1.cluster1) := by unfold rowStart; rw [a1]; rfl
  have e2 : rowEnd H.t H.pp x.1 = some (H.pp * hi P M x.1.cluster1) := by unfold rowEnd; rw [a2]; rfl
  have e3 : colStart H.t H.pp x.1 = some (H.pp * lo M x.1.cluster2) := by unfold colStart; rw [b1]; rfl
  have e4 : colEnd H.t H.pp x.1 = some (H.pp * hi P M x.1.cluster2) := by unfold colEnd; rw [b2]; rfl
  match hcc : x.1.cc with
  | .refine => exact absurd hcc hL.leaf
  | .dense =>
    obtain ⟨d1, d2⟩ := hw.dense i hi' j hj x hx hcc
    rw [hL.rows, Option.map_some, Option.some_inj] at d1
    rw [hL.cols, Option.map_some, Option.some_inj] at d2
    refine .dense _ _ _ _ hcc e1 e2 e3 e4 (Nat.mul_le_mul_left _ a4.le) (by rw [h3]; exact Nat.mul_le_mul_left _ a5)
      (Nat.mul_le_mul_left _ b4.le) (by rw [h3]; exact Nat.mul_le_mul_left _ b5) ?_ ?_
    · rw [← d1, Nat.mul_sub]
    · rw [← d2, Nat.mul_sub]
  | .lowRank =>
    rcases hL.pos with ⟨n1, n2⟩ | ⟨l, a, b, n1, n2, ha, hb, hl, hml⟩
    · have := hL.cc
      rw [n1, n2, compare_root, hcc] at this
      split at this <;> cases this
    · have hm := hw.minLevel
      obtain ⟨m, hm'⟩ : ∃ m : Nat, H.minLevel = m := ⟨H.minLevel.toNat, by omega⟩
      obtain ⟨ga1, ga2, -, -⟩ := h2 l hl a ha
      obtain ⟨gb1, gb2, -, -⟩ := h2 l hl b hb
      have hal := (mem_leaves.1 ha).2.1
      have hbl := (mem_leaves.1 hb).2.1
      obtain ⟨fl, hfl⟩ : ∃ fl, M = m + l + fl := ⟨M - m - l, by omega⟩
      have hst : ((H.t.maxLevel : Int) - H.minLevel).toNat = l + fl := by rw [h4, hm']; omega
      have hcs : clusterSize H * 4 ^ fl = H.pp * 4 ^ (M - l) := by
        unfold clusterSize
        rw [h4, hm', Int.toNat_natCast, Nat.min_eq_left (by omega), Nat.mul_assoc, ← pow_add]
        congr 2; omega
      have elo : ∀ c : Addr, c.2.length = l → H.pp * lo M (some c) = pathId c.1 c.2 * (clusterSize H * 4 ^ fl) := by
        intro c hc
        rw [hcs]; simp only [lo]; rw [hc]; ring
      have ehi : ∀ c : Addr, c.2.length = l → H.pp * hi P M (some c) =
          pathId c.1 c.2 * (clusterSize H * 4 ^ fl) + clusterSize H * 4 ^ fl := by
        intro c hc
        rw [hcs]; simp only [hi]; rw [hc]; ring
      obtain ⟨d1, d2⟩ := hw.lowRank i hi' j hj x hx hcc
      refine .lowRank a b fl hcc n1 n2 ?_ (by rw [hst]; omega) ?_ ?_ ?_ ?_ ?_ ?_ d1 d2
      · rw [h4, hm', ga2, hal]; omega
      · rw [hst, ga1, Nat.add_sub_cancel, Nat.mul_comm]; exact pathId_lt ha
      · rw [hst, gb1, Nat.add_sub_cancel, Nat.mul_comm]; exact pathId_lt hb
      · rw [e1, n1, elo a hal, ga1]
      · rw [e2, n1, ehi a hal, ga1]
      · rw [e3, n2, elo b hbl, gb1]
      · rw [e4, n2, ehi b hbl, gb1]

/-- Sum of the contributions of all leaves to an entry of the block of components `(row, col)`. -/
def entrySum (H : Mat K R) (np row col s c : Nat) : R :=
  ∑ k ∈ range (H.leaves row col).length, ((H.leaves row col)[k]?.map fun leaf =>
    contrib H.t H.pp H.minLevel np (clusterSize H) (H.moment row) (H.moment col) H.transfer leaf s c).getD 0

theorem clusterSize_pos : 0 < clusterSize H := by
  unfold clusterSize
  have := hw.pp_pos
  positivity

theorem component_eq (junk : Nat → Nat → R) (c : Nat) (S : Schedules H) (y dst : Nat → R) (col row : Nat)
    (hcol : col < H.vd) (hrow : row < H.vd) :
    componentStep junk H (H.pp * H.t.nElements) c S y dst col row = some fun s =>
      if row * (H.pp * H.t.nElements) ≤ s ∧ s < row * (H.pp * H.t.nElements) + H.pp * H.t.nElements then
        dst s + ∑ k ∈ range (H.pp * H.t.nElements), entrySum H np row col (s - row * (H.pp * H.t.nElements)) k *
          y (col * (H.pp * H.t.nElements) + k)
      else dst s := by
  have hN := size_eq hP h2 h3 h4 h5 h6 h7 hw
  have hmc := clusterSize_pos hP h2 h3 h4 h5 h6 h7 hw
  generalize hNN : H.pp * H.t.nElements = N at hN ⊢
  obtain ⟨m, fw, g1, g2, g3, g4⟩ := fw_eq junk (C := P) hw.np_pos hmc hP hN (H.moment col) H.transfer
    (hw.moment col hcol).1 (hw.moment col hcol).2 hw.transfer.1 hw.transfer.2 (fun k => y (col * N + k))
    ((H.t.maxLevel : Int) - H.minLevel) rfl
  unfold componentStep
  simp only
  rw [g1]
  simp only [Option.bind_eq_bind, Option.bind_some]
  rw [g2]
  simp only [Option.bind_some]
  have hadds : Omp.Adds (region junk H row col (N := N) (fun k => y (col * N + k)) fw)
      (fun p => Shape ((H.t.maxLevel : Int) - H.minLevel).toNat P (nc * np) p.2)
      (privVal np (clusterSize H) (nc * np) ((H.t.maxLevel : Int) - H.minLevel).toNat N (H.moment row) H.transfer)
      (fun k s => ∑ c ∈ range N, ((H.leaves row col)[k]?.map fun leaf =>
        contrib H.t H.pp H.minLevel np (clusterSize H) (H.moment row) (H.moment col) H.transfer leaf s.1 c).getD 0 *
          y (col * N + c)) := by
    refine ⟨?_, ?_, ?_, ?_⟩
    · refine ⟨by simp [region, g3], ?_⟩
      intro s hs
      obtain ⟨Y, y1, y2, y3, -⟩ := g4 s hs
      exact ⟨⟨Y.rows, Y.cols, fun _ _ => 0⟩, by simp [region, y1], y2, y3⟩
    · funext s
      simp only [privVal, region, Pi.zero_apply, zero_add]
      apply Finset.sum_eq_zero
      intro l _
      unfold levelVal
      apply Finset.sum_eq_zero
      intro i _
      rw [List.getElem?_map, Option.map_map]
      cases fw[l]? <;> simp
    · intro k hk p hp
      have hk : k < (H.leaves row col).length := hk
      have hget : (H.leaves row col)[k]? = some (H.leaves row col)[k] := List.getElem?_eq_getElem hk
      obtain ⟨q, q1, q2, q3⟩ := body_eq H hmc hN (H.moment row) (H.moment col) (fun k => y (col * N + k)) fw g4
        (H.leaves row col)[k] (by
          have := leaf_desc hP h2 h3 h4 h5 h6 h7 hw hrow hcol (List.getElem_mem hk)
          rw [hNN] at this; exact this) p hp
      refine ⟨q, ?_, q2, ?_⟩
      · simp only [region, hget, Option.bind_eq_bind, Option.bind_some]
        exact q1
      · rw [q3]
        simp only [hget, Option.map_some, Option.getD_some]
    · intro p hp
      exact fin_eq junk H hw.np_pos hw.nc_pos hmc hN (H.moment row) (hw.moment row hrow).1 (hw.moment row hrow).2
        hw.transfer.1 hw.transfer.2 p hp
  have hex := Omp.exec_eq (fun _ : Fin N => (0 : R)) hadds (S c col row)
  rw [hex]
  simp only [Option.bind_some]
  congr 1
  funext s
  by_cases hs : row * N ≤ s ∧ s < row * N + N
  · rw [dif_pos hs, if_pos hs]
    congr 1
    simp only [Pi.add_apply, Finset.sum_apply, zero_add]
    rw [Finset.sum_comm]
    apply Finset.sum_congr rfl
    intro k _
    unfold entrySum
    rw [Finset.sum_mul]
    rfl
  · rw [dif_neg hs, if_neg hs]

theorem longDst_eq (junk : Nat → Nat → R) (c : Nat) (S : Schedules H) (x : Nat → R) :
    longDst junk H c S x = some fun s => if s < H.vd * (H.pp * H.t.nElements) then
      ∑ col ∈ range H.vd, ∑ k ∈ range (H.pp * H.t.nElements),
        entrySum H np (s / (H.pp * H.t.nElements)) col (s % (H.pp * H.t.nElements)) k *
          ∑ d ∈ range H.trans.cols, H.trans.at' (col * (H.pp * H.t.nElements) + k) d * x d else 0 := by
  have hdiv : H.trans.rows / H.vd = H.pp * H.t.nElements := by rw [hw.trans, Nat.mul_div_cancel_left _ hw.vd_pos]
  have hNpos : 0 < H.pp * H.t.nElements := by
    rw [h3]; have := hw.pp_pos; positivity
  unfold longDst
  simp only [hdiv]
  generalize hy : (fun s => ∑ d ∈ range H.trans.cols, H.trans.at' s d * x d) = y
  have hy' : ∀ s, ∑ d ∈ range H.trans.cols, H.trans.at' s d * x d = y s := fun s => congrFun hy s
  simp only [hy']
  have inner : ∀ col < H.vd, ∀ dst : Nat → R, (List.range H.vd).foldlM (fun dst row =>
      componentStep junk H (H.pp * H.t.nElements) c S y dst col row) dst = some fun s =>
        dst s + if s < H.vd * (H.pp * H.t.nElements) then ∑ k ∈ range (H.pp * H.t.nElements),
          entrySum H np (s / (H.pp * H.t.nElements)) col (s % (H.pp * H.t.nElements)) k *
            y (col * (H.pp * H.t.nElements) + k) else 0 := by
    intro col hcol dst
    obtain ⟨z, z1, z2⟩ := foldlM_block H.vd (fun dst row => componentStep junk H (H.pp * H.t.nElements) c S y dst col row)
      (fun m z => z = fun s => dst s + if s < m * (H.pp * H.t.nElements) then ∑ k ∈ range (H.pp * H.t.nElements),
          entrySum H np (s / (H.pp * H.t.nElements)) col (s % (H.pp * H.t.nElements)) k *
            y (col * (H.pp * H.t.nElements) + k) else 0) dst (by funext s; simp) (by
        rintro row hrow z rfl
        refine ⟨_, component_eq hP h2 h3 h4 h5 h6 h7 hw junk c S y _ col row hcol hrow, ?_⟩
        funext s
        have es : (row + 1) * (H.pp * H.t.nElements) = row * (H.pp * H.t.nElements) + H.pp * H.t.nElements := by ring
        rw [es]
        by_cases hs1 : s < row * (H.pp * H.t.nElements)
        · rw [if_neg (by omega), if_pos hs1, if_pos (by omega)]
        · by_cases hs2 : s < row * (H.pp * H.t.nElements) + H.pp * H.t.nElements
          · rw [if_pos (by omega), if_neg hs1, if_pos hs2, add_zero]
            have hsd : s / (H.pp * H.t.nElements) = row := by
              rw [Nat.div_eq_iff hNpos]; constructor <;> omega
            have hsm : s - row * (H.pp * H.t.nElements) = s % (H.pp * H.t.nElements) := by
              rw [Nat.mod_def, hsd, Nat.mul_comm]
            rw [hsd, hsm]
          · rw [if_neg (by omega), if_neg hs1, if_neg hs2])
    rw [z1, z2]
  obtain ⟨z, z1, z2⟩ := foldlM_block H.vd (fun dst col => (List.range H.vd).foldlM (fun dst row =>
      componentStep junk H (H.pp * H.t.nElements) c S y dst col row) dst)
    (fun m z => z = fun s => if s < H.vd * (H.pp * H.t.nElements) then
      ∑ col ∈ range m, ∑ k ∈ range (H.pp * H.t.nElements),
        entrySum H np (s / (H.pp * H.t.nElements)) col (s % (H.pp * H.t.nElements)) k *
          y (col * (H.pp * H.t.nElements) + k) else 0) (fun _ => 0) (by funext s; simp) (by
      rintro col hcol z rfl
      refine ⟨_, inner col hcol _, ?_⟩
      funext s
      by_cases hs : s < H.vd * (H.pp * H.t.nElements)
      · rw [if_pos hs, if_pos hs, if_pos hs, Finset.sum_range_succ]
      · rw [if_neg hs, if_neg hs, if_neg hs, add_zero])
  rw [z1, z2]

/-- The block matrix that is applied. -/
def repMatrix (H : Mat K R) (np : Nat) (s c : Nat) : R :=
  entrySum H np (s / (H.pp * H.t.nElements)) (c / (H.pp * H.t.nElements)) (s % (H.pp * H.t.nElements))
    (c % (H.pp * H.t.nElements))

theorem entrySum_eq {i j : Nat} (hi' : i < H.vd) (hj : j < H.vd) {x : BTree × EMat R} (hx : x ∈ H.leaves i j)
    {r c r0 c0 : Nat} (hcov : Covers H.t H.pp x.1 r c) (hr0 : rowStart H.t H.pp x.1 = some r0)
    (hc0 : colStart H.t H.pp x.1 = some c0) : entrySum H np i j r c =
      leafEntry np (clusterSize H) (H.moment i) (H.moment j) H.transfer (x.1.cc = .dense)
        (leafLevel H.t H.minLevel x.1) x.2 (r - r0) (c - c0) := by
  obtain ⟨f1, f2⟩ := block_facts hP h2 h3 h4 h5 h6 h7 B eta H.minLevel hw.minLevel
  have hpp := hw.pp_pos
  have hmem : ∀ z ∈ H.leaves i j, z.1 ∈ leafPointers (initBlockClusterTree H.t B eta H.minLevel) := by
    intro z hz
    rw [← hw.tree i hi' j hj]; exact List.mem_map_of_mem hz
  have hL : ∀ b ∈ leafPointers (initBlockClusterTree H.t B eta H.minLevel),
      rowStart H.t H.pp b = some (H.pp * lo M b.cluster1) ∧ rowEnd H.t H.pp b = some (H.pp * hi P M b.cluster1) ∧
      colStart H.t H.pp b = some (H.pp * lo M b.cluster2) ∧ colEnd H.t H.pp b = some (H.pp * hi P M b.cluster2) := by
    intro b hb
    obtain ⟨a1, a2, -, -, -⟩ := cluster_iter hP h3 h4 h5 h6 h7 (f1 b hb).c1
    obtain ⟨b1, b2, -, -, -⟩ := cluster_iter hP h3 h4 h5 h6 h7 (f1 b hb).c2
    exact ⟨by unfold rowStart; rw [a1]; rfl, by unfold rowEnd; rw [a2]; rfl, by unfold colStart; rw [b1]; rfl,
      by unfold colEnd; rw [b2]; rfl⟩
  have hiff : ∀ b ∈ leafPointers (initBlockClusterTree H.t B eta H.minLevel), Covers H.t H.pp b r c ↔
      inB P M (r / H.pp) (c / H.pp) b = true := by
    intro b hb
    obtain ⟨e1, e2, e3, e4⟩ := hL b hb
    unfold Covers inB
    rw [e1, e2, e3, e4]
    simp only [Option.some_inj, Bool.and_eq_true, decide_eq_true_eq]
    rw [Nat.le_div_iff_mul_le hpp, Nat.le_div_iff_mul_le hpp, Nat.div_lt_iff_lt_mul hpp, Nat.div_lt_iff_lt_mul hpp,
      Nat.mul_comm _ H.pp, Nat.mul_comm _ H.pp, Nat.mul_comm _ H.pp, Nat.mul_comm _ H.pp]
    constructor
    · rintro ⟨_, _, _, _, rfl, rfl, rfl, rfl, z1, z2, z3, z4⟩; exact ⟨⟨z1, z2⟩, z3, z4⟩
    · rintro ⟨⟨z1, z2⟩, z3, z4⟩; exact ⟨_, _, _, _, rfl, rfl, rfl, rfl, z1, z2, z3, z4⟩
  have hcnt : (leafPointers (initBlockClusterTree H.t B eta H.minLevel)).countP (inB P M (r / H.pp) (c / H.pp)) ≤ 1 := by
    rw [f2]; unfold ind; split_ifs <;> omega
  have hpos : 0 < (leafPointers (initBlockClusterTree H.t B eta H.minLevel)).countP (inB P M (r / H.pp) (c / H.pp)) :=
    List.countP_pos_iff.2 ⟨x.1, hmem x hx, (hiff _ (hmem x hx)).1 hcov⟩
  obtain ⟨k, ⟨b, hb, hpb⟩, hu⟩ := unique_of_countP _ _ (Nat.le_antisymm hcnt hpos)
  obtain ⟨k', hk', hxk⟩ := List.mem_iff_getElem.1 hx
  have hL' : ∀ (n : Nat) (z : BTree × EMat R), (H.leaves i j)[n]? = some z →
      (leafPointers (initBlockClusterTree H.t B eta H.minLevel))[n]? = some z.1 := by
    intro n z hz
    rw [← hw.tree i hi' j hj, List.getElem?_map, hz]; rfl
  have hxk' : (H.leaves i j)[k']? = some x := by rw [List.getElem?_eq_getElem hk', hxk]
  have hkk : k' = k := hu k' ⟨x.1, hL' _ _ hxk', (hiff _ (hmem x hx)).1 hcov⟩
  unfold entrySum
  rw [Finset.sum_eq_single_of_mem k' (mem_range.2 hk')]
  · rw [hxk', Option.map_some, Option.getD_some]
    obtain ⟨r0', r1, c0', c1, e1, e2, e3, e4, z1, z2, z3, z4⟩ := hcov
    rw [e1, Option.some_inj] at hr0
    rw [e3, Option.some_inj] at hc0
    subst hr0 hc0
    unfold contrib
    rw [e1, e2, e3, e4]
    simp only
    rw [if_pos ⟨z1, z2⟩, if_pos ⟨z3, z4⟩]
  · intro n hn hne
    have hn := mem_range.1 hn
    rw [List.getElem?_eq_getElem hn, Option.map_some, Option.getD_some]
    have hz := List.getElem_mem hn
    have hget : (H.leaves i j)[n]? = some (H.leaves i j)[n] := List.getElem?_eq_getElem hn
    by_contra hcon
    apply hne
    rw [hkk]
    refine hu n ⟨_, hL' _ _ hget, (hiff _ (hmem _ hz)).1 ?_⟩
    unfold contrib at hcon
    obtain ⟨e1, e2, e3, e4⟩ := hL _ (hmem _ hz)
    rw [e1, e2, e3, e4] at hcon
    simp only at hcon
    split at hcon
    · split at hcon
      · rename_i q1 q2
        exact ⟨_, _, _, _, e1, e2, e3, e4, q1.1, q1.2, q2.1, q2.2⟩
      · exact absurd rfl hcon
    · exact absurd rfl hcon

theorem represents_repMatrix : Represents H np (repMatrix H np) := by
  intro i hi' j hj x hx r c r0 c0 hcov hr0 hc0
  have hcov' := hcov
  have hNpos : 0 < H.pp * H.t.nElements := by
    rw [h3]; have := hw.pp_pos; positivity
  obtain ⟨f1, -⟩ := block_facts hP h2 h3 h4 h5 h6 h7 B eta H.minLevel hw.minLevel
  have hmem : x.1 ∈ leafPointers (initBlockClusterTree H.t B eta H.minLevel) := by
    rw [← hw.tree i hi' j hj]; exact List.mem_map_of_mem hx
  obtain ⟨r0', r1, c0', c1, e1, e2, e3, e4, z1, z2, z3, z4⟩ := hcov'
  obtain ⟨-, a2, -, -, a5⟩ := cluster_iter hP h3 h4 h5 h6 h7 (f1 _ hmem).c1
  obtain ⟨-, b2, -, -, b5⟩ := cluster_iter hP h3 h4 h5 h6 h7 (f1 _ hmem).c2
  have hr : r < H.pp * H.t.nElements := by
    have : rowEnd H.t H.pp x.1 = some (H.pp * hi P M x.1.cluster1) := by unfold rowEnd; rw [a2]; rfl
    rw [this, Option.some_inj] at e2
    have := Nat.mul_le_mul_left H.pp a5
    rw [h3]; omega
  have hc : c < H.pp * H.t.nElements := by
    have : colEnd H.t H.pp x.1 = some (H.pp * hi P M x.1.cluster2) := by unfold colEnd; rw [b2]; rfl
    rw [this, Option.some_inj] at e4
    have := Nat.mul_le_mul_left H.pp b5
    rw [h3]; omega
  unfold repMatrix
  have hd : ∀ a b, b < H.pp * H.t.nElements → (a * (H.pp * H.t.nElements) + b) / (H.pp * H.t.nElements) = a ∧
      (a * (H.pp * H.t.nElements) + b) % (H.pp * H.t.nElements) = b := by
    intro a b hb
    rw [Nat.mul_comm a, Nat.mul_add_div hNpos, Nat.div_eq_of_lt hb, Nat.mul_add_mod, Nat.mod_eq_of_lt hb]
    exact ⟨rfl, rfl⟩
  rw [(hd i r hr).1, (hd i r hr).2, (hd j c hc).1, (hd j c hc).2]
  exact entrySum_eq hP h2 h3 h4 h5 h6 h7 hw hi' hj hx hcov hr0 hc0

theorem represents_unique (A : Nat → Nat → R) (hA : Represents H np A) : ∀ r < H.trans.rows, ∀ c < H.trans.rows,
    A r c = repMatrix H np r c := by
  intro r hr c hc
  have hNpos : 0 < H.pp * H.t.nElements := by
    rw [h3]; have := hw.pp_pos; positivity
  rw [hw.trans] at hr hc
  have hi' : r / (H.pp * H.t.nElements) < H.vd := by rw [Nat.div_lt_iff_lt_mul hNpos]; exact hr
  have hj : c / (H.pp * H.t.nElements) < H.vd := by rw [Nat.div_lt_iff_lt_mul hNpos]; exact hc
  have er : r = r / (H.pp * H.t.nElements) * (H.pp * H.t.nElements) + r % (H.pp * H.t.nElements) := by
    rw [Nat.mul_comm]; exact (Nat.div_add_mod _ _).symm
  have ec : c = c / (H.pp * H.t.nElements) * (H.pp * H.t.nElements) + c % (H.pp * H.t.nElements) := by
    rw [Nat.mul_comm]; exact (Nat.div_add_mod _ _).symm
  obtain ⟨f1, f2⟩ := block_facts hP h2 h3 h4 h5 h6 h7 B eta H.minLevel hw.minLevel
  -- the leaf that contains the entry
  have hpp := hw.pp_pos
  have hrm := Nat.mod_lt r hNpos
  have hcm := Nat.mod_lt c hNpos
  have o1 : ind P M none (r % (H.pp * H.t.nElements) / H.pp) = 1 := by
    unfold ind
    rw [if_pos ⟨Nat.zero_le _, by
      simp only [hi]; rw [Nat.div_lt_iff_lt_mul hpp, ← h3, Nat.mul_comm H.t.nElements]; exact hrm⟩]
  have o2 : ind P M none (c % (H.pp * H.t.nElements) / H.pp) = 1 := by
    unfold ind
    rw [if_pos ⟨Nat.zero_le _, by
      simp only [hi]; rw [Nat.div_lt_iff_lt_mul hpp, ← h3, Nat.mul_comm H.t.nElements]; exact hcm⟩]
  have hcount := f2 (r % (H.pp * H.t.nElements) / H.pp) (c % (H.pp * H.t.nElements) / H.pp)
  rw [o1, o2] at hcount
  obtain ⟨b, hb, hbb⟩ := List.countP_pos_iff.1 (show 0 < _ by rw [hcount]; omega)
  obtain ⟨x, hx, rfl⟩ : ∃ x ∈ H.leaves (r / (H.pp * H.t.nElements)) (c / (H.pp * H.t.nElements)), x.1 = b := by
    rw [← hw.tree _ hi' _ hj] at hb
    obtain ⟨x, hx, e⟩ := List.mem_map.1 hb
    exact ⟨x, hx, e⟩
  obtain ⟨a1, a2, -, -, -⟩ := cluster_iter hP h3 h4 h5 h6 h7 (f1 _ hb).c1
  obtain ⟨b1, b2, -, -, -⟩ := cluster_iter hP h3 h4 h5 h6 h7 (f1 _ hb).c2
  have e1 : rowStart H.t H.pp x.1 = some (H.pp * lo M x.1.cluster1) := by unfold rowStart; rw [a1]; rfl
  have e2 : rowEnd H.t H.pp x.1 = some (H.pp * hi P M x.1.cluster1) := by unfold rowEnd; rw [a2]; rfl
  have e3 : colStart H.t H.pp x.1 = some (H.pp * lo M x.1.cluster2) := by unfold colStart; rw [b1]; rfl
  have e4 : colEnd H.t H.pp x.1 = some (H.pp * hi P M x.1.cluster2) := by unfold colEnd; rw [b2]; rfl
  have hcov : Covers H.t H.pp x.1 (r % (H.pp * H.t.nElements)) (c % (H.pp * H.t.nElements)) := by
    unfold inB at hbb
    simp only [Bool.and_eq_true, decide_eq_true_eq] at hbb
    rw [Nat.le_div_iff_mul_le hpp, Nat.le_div_iff_mul_le hpp, Nat.div_lt_iff_lt_mul hpp, Nat.div_lt_iff_lt_mul hpp,
      Nat.mul_comm _ H.pp, Nat.mul_comm _ H.pp, Nat.mul_comm _ H.pp, Nat.mul_comm _ H.pp] at hbb
    exact ⟨_, _, _, _, e1, e2, e3, e4, hbb.1.1, hbb.1.2, hbb.2.1, hbb.2.2⟩
  have h1 := hA _ hi' _ hj x hx _ _ _ _ hcov e1 e3
  have h2' := represents_repMatrix hP h2 h3 h4 h5 h6 h7 hw _ hi' _ hj x hx _ _ _ _ hcov e1 e3
  rw [← er, ← ec] at h1 h2'
  rw [h1, h2']

theorem longDst_rep (junk : Nat → Nat → R) (c : Nat) (S : Schedules H) (x : Nat → R) :
    longDst junk H c S x = some fun s => if s < H.trans.rows then
      ∑ k ∈ range H.trans.rows, repMatrix H np s k * ∑ d ∈ range H.trans.cols, H.trans.at' k d * x d else 0 := by
  have hNpos : 0 < H.pp * H.t.nElements := by
    rw [h3]; have := hw.pp_pos; positivity
  rw [longDst_eq hP h2 h3 h4 h5 h6 h7 hw, hw.trans]
  congr 1
  funext s
  congr 1
  rw [sum_range_mul]
  apply Finset.sum_congr rfl
  intro col _
  apply Finset.sum_congr rfl
  intro k hk
  have hk := mem_range.1 hk
  unfold repMatrix
  rw [Nat.mul_comm col, Nat.mul_add_div hNpos, Nat.div_eq_of_lt hk, Nat.mul_add_mod, Nat.mod_eq_of_lt hk, Nat.add_zero]

theorem run_eq (junk : Nat → Nat → R) (S : Schedules H) (rhs res : EMat R) (alpha : R) (hr : rhs.rows = H.trans.cols)
    (hr1 : res.rows = H.trans.cols) (hr2 : res.cols = rhs.cols) :
    run junk H S rhs res alpha = some ⟨res.rows, res.cols, fun i c => if c < rhs.cols then res.at' i c +
      ∑ s ∈ range H.trans.rows, alpha * H.trans.at' s i * (if s < H.trans.rows then
      ∑ k ∈ range H.trans.rows, repMatrix H np s k * ∑ d ∈ range H.trans.cols, H.trans.at' k d * rhs.at' d c else 0)
      else res.at' i c⟩ := by
  unfold run
  rw [if_pos hr.symm]
  obtain ⟨z, z1, z2⟩ := foldlM_block rhs.cols (fun (res : EMat R) c => do
      let dst ← longDst junk H c S (fun d => rhs.at' d c)
      res.addCol c H.trans.cols fun i => ∑ s ∈ range H.trans.rows, alpha * H.trans.at' s i * dst s)
    (fun m z => z = ⟨res.rows, res.cols, fun i c => if c < m then res.at' i c +
      ∑ s ∈ range H.trans.rows, alpha * H.trans.at' s i * (if s < H.trans.rows then
      ∑ k ∈ range H.trans.rows, repMatrix H np s k * ∑ d ∈ range H.trans.cols, H.trans.at' k d * rhs.at' d c else 0)
      else res.at' i c⟩) res (by simp) (by
      rintro c hc z rfl
      rw [longDst_rep hP h2 h3 h4 h5 h6 h7 hw]
      simp only [Option.bind_eq_bind, Option.bind_some]
      unfold EMat.addCol
      rw [if_pos ⟨by simp only [hr2]; exact hc, by simp only [hr1]⟩]
      refine ⟨_, rfl, ?_⟩
      congr 1
      funext i j
      simp only
      by_cases hjc : j = c
      · subst hjc
        rw [if_pos rfl, if_neg (Nat.lt_irrefl _), if_pos (by omega)]
      · rw [if_neg hjc]
        by_cases hlt : j < c
        · rw [if_pos hlt, if_pos (by omega)]
        · rw [if_neg hlt, if_neg (by omega)])
  rw [z1, z2]

end

section
variable {K R : Type} [Field K] [CharZero K] [CommRing R] {V : Type} (near : V → V → Bool) (corner : Nat → Nat → V)
  {E : Type} [NormedAddCommGroup E]

/-- C38: for every mesh and every H2-matrix with consistent sizes, the product does not depend on the number of
threads, on the distribution of the leaf blocks over the threads, on the interleaving of the threads and on the order of
the critical sections (any two families of schedules `S`, `S'` give the same result), nor on uninitialised memory, and
there is no access out of bounds. -/
theorem C38_schedule (P M : Nat) (hP : 0 < P) (H : Mat K R) (ht : initElementTree near corner P M = some H.t)
    (B : Addr → Ball E) (eta : ℝ) (np nc : Nat) (hw : WellFormed H B eta np nc) (junk junk' : Nat → Nat → R)
    (S S' : Schedules H) (rhs res : EMat R) (alpha : R) (hr : rhs.rows = H.trans.cols) (hr1 : res.rows = H.trans.cols)
    (hr2 : res.cols = rhs.cols) :
    run junk H S rhs res alpha = run junk' H S' rhs res alpha ∧ (run junk H S rhs res alpha).isSome := by
  obtain ⟨t, h1, h2, h3, h4, h5, h6, h7⟩ := tree_facts (K := K) near corner P M hP
  rw [ht, Option.some_inj] at h1
  subst h1
  rw [run_eq hP h2 h3 h4 h5 h6 h7 hw junk S rhs res alpha hr hr1 hr2,
    run_eq hP h2 h3 h4 h5 h6 h7 hw junk' S' rhs res alpha hr hr1 hr2]
  exact ⟨rfl, rfl⟩

/-- C39: there is exactly one matrix `A` represented by an H2-matrix (its entries are given leaf by leaf: dense blocks
are stored, compressed blocks are `Vᵀ F W` with the nested cluster bases), and the product computes
`res += alpha * Tᵀ A T * rhs` with the transformation matrix `T`. -/
theorem C39_product (P M : Nat) (hP : 0 < P) (H : Mat K R) (ht : initElementTree near corner P M = some H.t)
    (B : Addr → Ball E) (eta : ℝ) (np nc : Nat) (hw : WellFormed H B eta np nc) :
    (∃ A, Represents H np A) ∧
    (∀ A A', Represents H np A → Represents H np A' → ∀ r < H.trans.rows, ∀ c < H.trans.rows, A r c = A' r c) ∧
    ∀ A, Represents H np A → ∀ (junk : Nat → Nat → R) (S : Schedules H) (rhs res : EMat R) (alpha : R),
      rhs.rows = H.trans.cols → res.rows = H.trans.cols → res.cols = rhs.cols →
      ∃ res', run junk H S rhs res alpha = some res' ∧ res'.rows = res.rows ∧ res'.cols = res.cols ∧
        ∀ i < res.rows, ∀ c < res.cols, res'.at' i c = res.at' i c + alpha * ∑ r ∈ range H.trans.rows,
          ∑ k ∈ range H.trans.rows, ∑ d ∈ range H.trans.cols, H.trans.at' r i * A r k * H.trans.at' k d * rhs.at' d c := by
  obtain ⟨t, h1, h2, h3, h4, h5, h6, h7⟩ := tree_facts (K := K) near corner P M hP
  rw [ht, Option.some_inj] at h1
  subst h1
  refine ⟨⟨_, represents_repMatrix hP h2 h3 h4 h5 h6 h7 hw⟩, ?_, ?_⟩
  · intro A A' hA hA' r hr c hc
    rw [represents_unique hP h2 h3 h4 h5 h6 h7 hw A hA r hr c hc, represents_unique hP h2 h3 h4 h5 h6 h7 hw A' hA' r hr c hc]
  · intro A hA junk S rhs res alpha hr hr1 hr2
    refine ⟨_, run_eq hP h2 h3 h4 h5 h6 h7 hw junk S rhs res alpha hr hr1 hr2, rfl, rfl, ?_⟩
    intro i _ c hc
    simp only
    rw [if_pos (by omega), Finset.mul_sum]
    congr 1
    apply Finset.sum_congr rfl
    intro s hs
    have hs := mem_range.1 hs
    rw [if_pos hs, mul_assoc]
    congr 1
    rw [Finset.mul_sum]
    apply Finset.sum_congr rfl
    intro k hk
    rw [represents_unique hP h2 h3 h4 h5 h6 h7 hw A hA s hs k (mem_range.1 hk), Finset.mul_sum, Finset.mul_sum]
    apply Finset.sum_congr rfl
    intro d _
    ring

end

end Bembel.Props
