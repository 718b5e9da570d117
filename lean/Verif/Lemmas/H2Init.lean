import Verif.Model.H2Init
import Verif.Lemmas.BlockCluster
import Verif.Lemmas.H2Transform
/-! # Loops that write, elements of clusters -/

namespace Bembel.H2
open Mesh BlockCluster

/-- A loop whose turns write (consistently) the target values at the places they hit. -/
theorem foldlM_write {β S ι V : Type} (Inv : S → Prop) (step : S → β → Option S) (get : S → ι → V) (hit : β → ι → Prop)
    (tgt : ι → V) (l : List β) (h : ∀ s b, b ∈ l → Inv s → ∃ s', step s b = some s' ∧ Inv s' ∧
      ∀ p, (hit b p → get s' p = tgt p) ∧ (¬ hit b p → get s' p = get s p)) :
    ∀ s, Inv s → ∃ s', l.foldlM step s = some s' ∧ Inv s' ∧
      ∀ p, ((∃ b ∈ l, hit b p) → get s' p = tgt p) ∧ ((¬ ∃ b ∈ l, hit b p) → get s' p = get s p) := by
  induction l with
  | nil => intro s hs; exact ⟨s, rfl, hs, fun p => by simp⟩
  | cons b l ih =>
    intro s hs
    obtain ⟨s1, e1, i1, w1⟩ := h s b List.mem_cons_self hs
    obtain ⟨s2, e2, i2, w2⟩ := ih (fun s b hb => h s b (List.mem_cons_of_mem _ hb)) s1 i1
    refine ⟨s2, by rw [List.foldlM_cons, e1]; exact e2, i2, fun p => ⟨?_, ?_⟩⟩
    · rintro ⟨b', hb', hp⟩
      by_cases hl : ∃ b ∈ l, hit b p
      · exact (w2 p).1 hl
      · rw [(w2 p).2 hl]
        rcases List.mem_cons.1 hb' with rfl | hb'
        · exact (w1 p).1 hp
        · exact absurd ⟨b', hb', hp⟩ hl
    · intro hp
      rw [(w2 p).2 fun ⟨b', hb', h'⟩ => hp ⟨b', List.mem_cons_of_mem _ hb', h'⟩]
      exact (w1 p).2 fun h' => hp ⟨b, List.mem_cons_self, h'⟩

theorem foldl_write {β S ι V : Type} (step : S → β → S) (get : S → ι → V) (hit : β → ι → Prop)
    (tgt : ι → V) (l : List β) (h : ∀ s b, b ∈ l → ∀ p, (hit b p → get (step s b) p = tgt p) ∧ (¬ hit b p → get (step s b) p = get s p)) :
    ∀ s p, ((∃ b ∈ l, hit b p) → get (l.foldl step s) p = tgt p) ∧ ((¬ ∃ b ∈ l, hit b p) → get (l.foldl step s) p = get s p) := by
  intro s p
  obtain ⟨s', e, -, w⟩ := foldlM_write (fun _ => True) (fun s b => some (step s b)) get hit tgt l
    (fun s b hb _ => ⟨_, rfl, trivial, h s b hb⟩) s trivial
  have : ∀ (l : List β) s, l.foldlM (fun s b => some (step s b)) s = some (l.foldl step s) := by
    intro l
    induction l with
    | nil => intro s; rfl
    | cons b l ih => intro s; rw [List.foldlM_cons, List.foldl_cons]; exact ih _
  rw [this, Option.some_inj] at e
  rw [e]
  exact w p

variable {R : Type} [CommRing R]

/-- Entries of the interpolated kernel. -/
theorem interpolateKernel_entry (junk : Nat → Nat → R) (op : Operator R) (surf : Addr → ℝ × ℝ → ℝ → SurfPt) (n : Nat)
    (x : Nat → ℝ × ℝ) (c1 c2 : Addr) (i j : Nat) (hi : i < n) (hj : j < n) (ii jj iii jjj : Nat) (hii : ii < op.vd) (hjj : jj < op.vd)
    (h3 : iii < op.nc) (h4 : jjj < op.nc) :
    (interpolateKernel junk op surf n x c1 c2).at' (i + (ii * op.nc + iii) * n) (j + (jj * op.nc + jjj) * n) =
      op.fmm (surf c1 (x i) 1) (surf c2 (x j) 1) (ii * op.nc + iii) (jj * op.nc + jjj) := by
  set tgt : Nat × Nat → R := fun p => op.fmm (surf c1 (x (p.1 % n)) 1) (surf c2 (x (p.2 % n)) 1) (p.1 / n) (p.2 / n) with htgt
  have key : ∀ a < n, ∀ b, (a + b * n) % n = a ∧ (a + b * n) / n = b := by
    intro a ha b
    rw [Nat.add_mul_mod_self_right, Nat.mod_eq_of_lt ha, Nat.add_mul_div_right _ _ (by omega), Nat.div_eq_of_lt ha]
    exact ⟨rfl, Nat.zero_add _⟩
  have main := foldl_write (S := Nat → Nat → R) (ι := Nat × Nat) (V := R) (fun F i =>
      (List.range n).foldl (fun F j =>
        (List.range op.vd).foldl (fun F ii => (List.range op.vd).foldl (fun F jj =>
          (List.range op.nc).foldl (fun F iii => (List.range op.nc).foldl (fun F jjj =>
            put F (i + (ii * op.nc + iii) * n) (j + (jj * op.nc + jjj) * n)
              (op.fmm (surf c1 (x i) 1) (surf c2 (x j) 1) (iii + ii * op.nc) (jjj + jj * op.nc)))
            F) F) F) F) F)
    (fun F p => F p.1 p.2)
    (fun i p => ∃ j ∈ List.range n, ∃ ii ∈ List.range op.vd, ∃ jj ∈ List.range op.vd, ∃ iii ∈ List.range op.nc,
      ∃ jjj ∈ List.range op.nc, p = (i + (ii * op.nc + iii) * n, j + (jj * op.nc + jjj) * n)) tgt (List.range n) (by
    intro F i hi p
    refine foldl_write (S := Nat → Nat → R) (ι := Nat × Nat) (V := R) _ (fun F p => F p.1 p.2) (fun j p => ∃ ii ∈ List.range op.vd, ∃ jj ∈ List.range op.vd,
      ∃ iii ∈ List.range op.nc, ∃ jjj ∈ List.range op.nc, p = (i + (ii * op.nc + iii) * n, j + (jj * op.nc + jjj) * n)) tgt _ ?_ F p
    intro F j hj p
    refine foldl_write (S := Nat → Nat → R) (ι := Nat × Nat) (V := R) _ (fun F p => F p.1 p.2) (fun ii p => ∃ jj ∈ List.range op.vd,
      ∃ iii ∈ List.range op.nc, ∃ jjj ∈ List.range op.nc, p = (i + (ii * op.nc + iii) * n, j + (jj * op.nc + jjj) * n)) tgt _ ?_ F p
    intro F ii hii p
    refine foldl_write (S := Nat → Nat → R) (ι := Nat × Nat) (V := R) _ (fun F p => F p.1 p.2) (fun jj p =>
      ∃ iii ∈ List.range op.nc, ∃ jjj ∈ List.range op.nc, p = (i + (ii * op.nc + iii) * n, j + (jj * op.nc + jjj) * n)) tgt _ ?_ F p
    intro F jj hjj p
    refine foldl_write (S := Nat → Nat → R) (ι := Nat × Nat) (V := R) _ (fun F p => F p.1 p.2) (fun iii p =>
      ∃ jjj ∈ List.range op.nc, p = (i + (ii * op.nc + iii) * n, j + (jj * op.nc + jjj) * n)) tgt _ ?_ F p
    intro F iii hiii p
    refine foldl_write (S := Nat → Nat → R) (ι := Nat × Nat) (V := R) _ (fun F p => F p.1 p.2) (fun jjj p =>
      p = (i + (ii * op.nc + iii) * n, j + (jj * op.nc + jjj) * n)) tgt _ ?_ F p
    intro F jjj hjjj p
    simp only [List.mem_range] at hi hj
    constructor
    · rintro rfl
      simp only [put, htgt, and_self, if_true]
      rw [(key i hi _).1, (key i hi _).2, (key j hj _).1, (key j hj _).2, Nat.add_comm iii, Nat.add_comm jjj]
    · intro hne
      simp only [put]
      rw [if_neg]
      rintro ⟨h1, h2⟩
      exact hne (Prod.ext h1 h2)) junk (i + (ii * op.nc + iii) * n, j + (jj * op.nc + jjj) * n)
  have h := main.1 ⟨i, List.mem_range.2 hi, j, List.mem_range.2 hj, ii, List.mem_range.2 hii, jj, List.mem_range.2 hjj, iii,
    List.mem_range.2 h3, jjj, List.mem_range.2 h4, rfl⟩
  simp only [htgt] at h
  rw [(key i hi _).1, (key i hi _).2, (key j hj _).1, (key j hj _).2] at h
  exact h

/-- Elements of a cluster. -/
theorem elementsOf_eq {K : Type} [Field K] [CharZero K] {P M : Nat} (hP : 0 < P) {t : Mesh.Tree K} (h3 : t.nElements = P * 4 ^ M) (h4 : t.maxLevel = M)
    (h5 : t.nPatches = P) (h6 : Chain t.links (leaves P M)) (h7 : ∀ b, t.refined b = true ↔ ∃ j < M, b ∈ leaves P j)
    {c : Cluster} (hc : IsCluster P M c) : ∃ L, elementsOf t c = some L ∧ L.length = hi P M c - lo M c ∧
      (∀ k b, L[k]? = some b → b ∈ leaves P M ∧ pathId b.1 b.2 = lo M c + k) ∧
      ∀ b ∈ leaves P M, lo M c ≤ pathId b.1 b.2 → pathId b.1 b.2 < hi P M c → L[pathId b.1 b.2 - lo M c]? = some b := by
  obtain ⟨-, A, C, B, e, eA, eC, hC, eb, ee⟩ := cluster_segment hP h4 h5 h6 h7 hc
  have hs := h6.1
  have hnd := leaves_nodup P M
  have hlen := congrArg List.length e
  rw [leaves_length, List.length_append, List.length_append] at hlen
  rw [e] at hs hnd
  have hnd1 := List.nodup_append.1 hnd
  have hnd2 := List.nodup_append.1 hnd1.2.1
  have idx : ∀ (k : Nat) b, (leaves P M)[k]? = some b → pathId b.1 b.2 = k := by
    intro k b hk
    obtain ⟨hk1, hk2⟩ := List.getElem?_eq_some_iff.1 hk
    have := index_leaves (P := P) (l := M) (a := b) (A := (leaves P M).take k) (B := (leaves P M).drop (k + 1)) (by
      rw [← hk2, ← List.drop_eq_getElem_cons hk1, List.take_append_drop])
    rw [← this, List.length_take]; omega
  have getC : ∀ k, k < C.length → C[k]? = (leaves P M)[lo M c + k]? := by
    intro k hk
    rw [e, List.getElem?_append_right (by omega), List.getElem?_append_left (by omega)]
    congr 1; omega
  refine ⟨C, ?_, eC, ?_, ?_⟩
  · unfold elementsOf
    rw [eb, ee, hd_append]
    have hs' := ((seg_append _ _ _ _ _ _).1 hs).2
    rw [walk_seg t.prev t.next C _ _ _ ((seg_append _ _ _ _ _ _).1 hs').1 (by omega) ?_]
    intro x hx hxA
    exact hnd2.2.2 x hxA x (hd_mem _ _ hx) rfl
  · intro k b hk
    have hk1 := (List.getElem?_eq_some_iff.1 hk).1
    rw [getC k hk1] at hk
    exact ⟨List.mem_of_getElem? hk, idx _ _ hk⟩
  · intro b hb h1 h2
    obtain ⟨k, hk⟩ := List.mem_iff_getElem?.1 hb
    have := idx k b hk
    rw [getC _ (by omega), this, show lo M c + (k - lo M c) = k by omega]
    exact hk

/-- One pair of elements of a dense leaf. -/
theorem densePair_eq (vd pp N : Nat) (hpp : 0 < pp) (pair : Addr → Addr → Option (Nat → Nat → R)) (v : Nat → Nat → R)
    (F : Nat → EMat R) (hF : ∀ k < vd * vd, (F k).rows = N * pp ∧ (F k).cols = N * pp) (a : Addr) (cl1 : Nat) (b : Addr) (cl2 : Nat)
    (h1 : cl1 < N) (h2 : cl2 < N) (hv : pair a b = some v) :
    ∃ F', densePair vd pp pair F a cl1 b cl2 = some F' ∧ (∀ k < vd * vd, (F' k).rows = N * pp ∧ (F' k).cols = N * pp) ∧
      ∀ p : Nat × Nat × Nat, ((p.1 < vd * vd ∧ p.2.1 / pp = cl1 ∧ p.2.2 / pp = cl2) →
          (F' p.1).at' p.2.1 p.2.2 = v (p.1 % vd * pp + p.2.1 % pp) (p.1 / vd * pp + p.2.2 % pp)) ∧
        (¬ (p.1 < vd * vd ∧ p.2.1 / pp = cl1 ∧ p.2.2 / pp = cl2) → (F' p.1).at' p.2.1 p.2.2 = (F p.1).at' p.2.1 p.2.2) := by
  have hidx : ∀ i < vd, ∀ j < vd, i * vd + j < vd * vd := fun i hi j hj => by
    calc i * vd + j < i * vd + vd := by omega
      _ = (i + 1) * vd := by ring
      _ ≤ vd * vd := Nat.mul_le_mul_right _ hi
  have hblk : ∀ x cl : Nat, (pp * cl ≤ x ∧ x < pp * cl + pp) ↔ x / pp = cl := by
    intro x cl
    rw [Nat.div_eq_iff hpp]
    constructor
    · rintro ⟨h1, h2⟩; exact ⟨by rw [Nat.mul_comm]; exact h1, by rw [Nat.mul_comm]; omega⟩
    · rintro ⟨h1, h2⟩; rw [Nat.mul_comm] at h1 h2; exact ⟨h1, by omega⟩
  have hsub : ∀ x cl : Nat, x / pp = cl → x - pp * cl = x % pp := by
    rintro x cl rfl
    have := Nat.div_add_mod x pp
    omega
  have hfit : ∀ i < vd, i * pp + pp ≤ vd * pp := fun i hi => by
    calc i * pp + pp = (i + 1) * pp := by ring
      _ ≤ vd * pp := Nat.mul_le_mul_right _ hi
  have hfit2 : ∀ cl < N, pp * cl + pp ≤ N * pp := fun cl hcl => by
    calc pp * cl + pp = (cl + 1) * pp := by ring
      _ ≤ N * pp := Nat.mul_le_mul_right _ hcl
  let tgt : Nat × Nat × Nat → R := fun p => v (p.1 % vd * pp + p.2.1 % pp) (p.1 / vd * pp + p.2.2 % pp)
  unfold densePair
  rw [hv]
  simp only [Option.bind_eq_bind, Option.bind_some]
  obtain ⟨F', e, i, w⟩ := foldlM_write (S := Nat → EMat R) (ι := Nat × Nat × Nat) (V := R)
    (fun F => ∀ k < vd * vd, (F k).rows = N * pp ∧ (F k).cols = N * pp)
    (fun F i => (List.range vd).foldlM (fun F j =>
      (EMat.block (⟨vd * pp, vd * pp, v⟩ : EMat R) (j * pp) (i * pp) pp pp).bind fun blk =>
        ((F (i * vd + j)).setBlock (pp * cl1) (pp * cl2) pp pp blk).bind fun new =>
          some fun k => if k = i * vd + j then new else F k) F)
    (fun F p => (F p.1).at' p.2.1 p.2.2)
    (fun i p => ∃ j ∈ List.range vd, p.1 = i * vd + j ∧ p.2.1 / pp = cl1 ∧ p.2.2 / pp = cl2) tgt (List.range vd) (by
      intro F i hi hF
      have hi := List.mem_range.1 hi
      refine foldlM_write (S := Nat → EMat R) (ι := Nat × Nat × Nat) (V := R) _ _ (fun F p => (F p.1).at' p.2.1 p.2.2)
        (fun j p => p.1 = i * vd + j ∧ p.2.1 / pp = cl1 ∧ p.2.2 / pp = cl2) tgt (List.range vd) ?_ F hF
      intro F j hj hF
      have hj := List.mem_range.1 hj
      obtain ⟨f1, f2⟩ := hF _ (hidx i hi j hj)
      refine ⟨fun k => if k = i * vd + j then ⟨(F (i * vd + j)).rows, (F (i * vd + j)).cols, fun a b =>
          if (pp * cl1 ≤ a ∧ a < pp * cl1 + pp) ∧ (pp * cl2 ≤ b ∧ b < pp * cl2 + pp) then
            v (j * pp + (a - pp * cl1)) (i * pp + (b - pp * cl2)) else (F (i * vd + j)).at' a b⟩ else F k, ?_, ?_, ?_⟩
      · rw [EMat.block, if_pos ⟨hfit j hj, hfit i hi⟩, Option.bind_some, EMat.setBlock,
          if_pos ⟨by rw [f1]; exact hfit2 _ h1, by rw [f2]; exact hfit2 _ h2, rfl, rfl⟩, Option.bind_some]
      · intro k hk
        simp only
        split
        · exact ⟨f1, f2⟩
        · exact hF k hk
      · rintro ⟨k, x, y⟩
        have hvd : 0 < vd := by omega
        constructor
        · rintro ⟨rfl, q1, q2⟩
          simp only at q1 q2
          simp only [if_true]
          rw [if_pos ⟨(hblk _ _).2 q1, (hblk _ _).2 q2⟩, hsub _ _ q1, hsub _ _ q2]
          simp only [tgt]
          rw [Nat.mul_comm i vd, Nat.mul_add_mod, Nat.mod_eq_of_lt hj, Nat.mul_add_div hvd, Nat.div_eq_of_lt hj, Nat.add_zero]
        · intro hne
          simp only at hne ⊢
          by_cases hk : k = i * vd + j
          · rw [if_pos hk]
            simp only
            rw [if_neg, hk]
            rintro ⟨q1, q2⟩
            exact hne ⟨hk, (hblk _ _).1 q1, (hblk _ _).1 q2⟩
          · rw [if_neg hk]) F hF
  refine ⟨F', e, i, fun p => ⟨?_, ?_⟩⟩
  · rintro ⟨hk, q1, q2⟩
    have hvd : 0 < vd := Nat.pos_of_ne_zero fun h => by simp [h] at hk
    exact (w p).1 ⟨p.1 / vd, List.mem_range.2 (Nat.div_lt_of_lt_mul hk), p.1 % vd, List.mem_range.2 (Nat.mod_lt _ hvd),
      (Nat.div_add_mod' _ _).symm, q1, q2⟩
  · intro hne
    refine (w p).2 ?_
    rintro ⟨i, hi, j, hj, q0, q1, q2⟩
    exact hne ⟨by rw [q0]; exact hidx _ (List.mem_range.1 hi) _ (List.mem_range.1 hj), q1, q2⟩

/-- The matrices of a dense leaf whose clusters have equally many elements. -/
theorem denseLeaf_eq {K : Type} (junk : Nat → Nat → R) (t : Mesh.Tree K) (vd pp N : Nat) (hpp : 0 < pp)
    (pair : Addr → Addr → Option (Nat → Nat → R)) (v : Addr → Addr → Nat → Nat → R) (c1 c2 : Cluster) (L1 L2 : List Addr)
    (hL1 : elementsOf t c1 = some L1) (hL2 : elementsOf t c2 = some L2) (n1 : L1.length = N) (n2 : L2.length = N)
    (hv : ∀ a ∈ L1, ∀ b ∈ L2, pair a b = some (v a b)) :
    ∃ F, denseLeaf junk t vd pp pair c1 c2 = some F ∧ (∀ k < vd * vd, (F k).rows = N * pp ∧ (F k).cols = N * pp) ∧
      ∀ i < vd, ∀ j < vd, ∀ k1 a, L1[k1]? = some a → ∀ k2 b, L2[k2]? = some b → ∀ r < pp, ∀ c < pp,
        (F (i * vd + j)).at' (pp * k1 + r) (pp * k2 + c) = v a b (j * pp + r) (i * pp + c) := by
  let tgt : Nat × Nat × Nat → R := fun p => v (L1.getD (p.2.1 / pp) (0, [])) (L2.getD (p.2.2 / pp) (0, []))
    (p.1 % vd * pp + p.2.1 % pp) (p.1 / vd * pp + p.2.2 % pp)
  have get1 : ∀ {L : List Addr} {k : Nat} {a : Addr}, (a, k) ∈ L.zipIdx → L[k]? = some a := by
    intro L k a h
    exact List.mem_zipIdx_iff_getElem?.1 h
  unfold denseLeaf
  rw [hL1, hL2]
  simp only [Option.bind_eq_bind, Option.bind_some]
  obtain ⟨F', e, i, w⟩ := foldlM_write (S := Nat → EMat R) (ι := Nat × Nat × Nat) (V := R)
    (fun F => ∀ k < vd * vd, (F k).rows = N * pp ∧ (F k).cols = N * pp)
    (fun F (e1 : Addr × Nat) => L2.zipIdx.foldlM (fun F (e2 : Addr × Nat) => densePair vd pp pair F e1.1 e1.2 e2.1 e2.2) F)
    (fun F p => (F p.1).at' p.2.1 p.2.2)
    (fun e1 p => ∃ e2 ∈ L2.zipIdx, p.1 < vd * vd ∧ p.2.1 / pp = e1.2 ∧ p.2.2 / pp = e2.2) tgt L1.zipIdx (by
      rintro F ⟨a, k1⟩ h1 hF
      have g1 := get1 h1
      refine foldlM_write (S := Nat → EMat R) (ι := Nat × Nat × Nat) (V := R)
        (fun F => ∀ k < vd * vd, (F k).rows = N * pp ∧ (F k).cols = N * pp) _ (fun F p => (F p.1).at' p.2.1 p.2.2)
        (fun e2 p => p.1 < vd * vd ∧ p.2.1 / pp = k1 ∧ p.2.2 / pp = e2.2) tgt L2.zipIdx ?_ F hF
      rintro F ⟨b, k2⟩ h2 hF
      have g2 := get1 h2
      obtain ⟨F', q1, q2, q3⟩ := densePair_eq vd pp N hpp pair (v a b) F hF a k1 b k2
        (by rw [← n1]; exact (List.getElem?_eq_some_iff.1 g1).1) (by rw [← n2]; exact (List.getElem?_eq_some_iff.1 g2).1)
        (hv a (List.mem_of_getElem? g1) b (List.mem_of_getElem? g2))
      refine ⟨F', q1, q2, fun p => ⟨?_, (q3 p).2⟩⟩
      intro hp
      rw [(q3 p).1 hp]
      simp only [tgt]
      rw [hp.2.1, hp.2.2, List.getD_eq_getElem?_getD, List.getD_eq_getElem?_getD, g1, g2]
      rfl) (fun _ => ⟨L2.length * pp, L2.length * pp, junk⟩) (fun k _ => by rw [n2]; exact ⟨rfl, rfl⟩)
  refine ⟨F', e, i, ?_⟩
  intro i hi j hj k1 a ha k2 b hb r hr c hc
  have d1 : (pp * k1 + r) / pp = k1 := by rw [Nat.mul_add_div hpp, Nat.div_eq_of_lt hr, Nat.add_zero]
  have d2 : (pp * k2 + c) / pp = k2 := by rw [Nat.mul_add_div hpp, Nat.div_eq_of_lt hc, Nat.add_zero]
  have hvd : 0 < vd := by omega
  have hidx : i * vd + j < vd * vd := by
    calc i * vd + j < i * vd + vd := by omega
      _ = (i + 1) * vd := by ring
      _ ≤ vd * vd := Nat.mul_le_mul_right _ hi
  have := (w (i * vd + j, pp * k1 + r, pp * k2 + c)).1 ⟨(a, k1), List.mem_zipIdx_iff_getElem?.2 ha, (b, k2),
    List.mem_zipIdx_iff_getElem?.2 hb, hidx, d1, d2⟩
  simp only [tgt] at this
  rw [this, d1, d2, List.getD_eq_getElem?_getD, List.getD_eq_getElem?_getD, ha, hb]
  simp only [Option.getD_some]
  rw [Nat.mul_comm i vd, Nat.mul_add_mod, Nat.mod_eq_of_lt hj, Nat.mul_add_div hvd, Nat.div_eq_of_lt hj, Nat.add_zero,
    Nat.mul_add_mod, Nat.mul_add_mod, Nat.mod_eq_of_lt hr, Nat.mod_eq_of_lt hc]

end Bembel.H2
