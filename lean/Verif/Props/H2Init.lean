import Verif.Lemmas.ElementSquare
import Verif.Spec.H2Init
import Verif.Lemmas.H2Init
import Verif.Props.MomentOperators
import Verif.Props.H2
import Verif.Props.Dense
/-! # C63: assembly of H2-matrices -/

set_option linter.unusedSectionVars false

namespace Bembel.Props
open Finset Mesh H2 Spec BlockCluster Util

section
variable {R : Type} [CommRing R] [Algebra ℝ R]

/-- What the task of a leaf has to compute for the tree of the components `(i, j)`. -/
def GoodLeaf (P M : Nat) (pp : Nat) (op : Operator R) (surf : Addr → ℝ × ℝ → ℝ → SurfPt) (np2 : Nat) (x : Nat → ℝ × ℝ)
    (v : Addr → Addr → Nat → Nat → R) (leaf : BTree) (i j : Nat) (f : EMat R) : Prop :=
  (leaf.cc = .dense → f.rows = (hi P M leaf.cluster1 - lo M leaf.cluster1) * pp ∧
    f.cols = (hi P M leaf.cluster2 - lo M leaf.cluster2) * pp ∧
    ∀ a ∈ leaves P M, ∀ b ∈ leaves P M, lo M leaf.cluster1 ≤ pathId a.1 a.2 → pathId a.1 a.2 < hi P M leaf.cluster1 →
      lo M leaf.cluster2 ≤ pathId b.1 b.2 → pathId b.1 b.2 < hi P M leaf.cluster2 → ∀ r < pp, ∀ c < pp,
      f.at' (pp * (pathId a.1 a.2 - lo M leaf.cluster1) + r) (pp * (pathId b.1 b.2 - lo M leaf.cluster2) + c) =
        v a b (i * pp + r) (j * pp + c)) ∧
  (leaf.cc = .lowRank → f.rows = op.nc * np2 ∧ f.cols = op.nc * np2 ∧ ∃ c1 c2, leaf.cluster1 = some c1 ∧ leaf.cluster2 = some c2 ∧
    ∀ α < op.nc, ∀ β < op.nc, ∀ s < np2, ∀ s' < np2, f.at' (α * np2 + s) (β * np2 + s') =
      op.fmm (surf c1 (x s) 1) (surf c2 (x s') 1) (i * op.nc + α) (j * op.nc + β))

theorem leafTask_eq {V W : Type} [NormedAddCommGroup W] (near : V → V → Bool) (corner : Nat → Nat → V) {P M : Nat} (hP : 0 < P)
    {t : Mesh.Tree ℝ} (ht : initElementTree near corner P M = some t) (B : Addr → Ball W) (eta : ℝ) (m : Int) (hm : 0 ≤ m)
    (junk : Nat → Nat → R) (pp : Nat) (hpp : 0 < pp) (pair : Addr → Addr → Option (Nat → Nat → R))
    (v : Addr → Addr → Nat → Nat → R) (hv : ∀ a ∈ leaves P M, ∀ b ∈ leaves P M, pair a b = some (v a b))
    (op : Operator R) (surf : Addr → ℝ × ℝ → ℝ → SurfPt) (np2 : Nat) (x : Nat → ℝ × ℝ) (leaf : BTree)
    (hl : leaf ∈ leafPointers (initBlockClusterTree t B eta m)) :
    ∃ G, leafTask junk t pp pair op surf np2 x leaf = some G ∧ ∀ i < op.vd, ∀ j < op.vd, ∃ f, G j i = some f ∧
      GoodLeaf P M pp op surf np2 x v leaf i j f := by
  obtain ⟨t', h1, h2, h3, h4, h5, h6, h7⟩ := tree_facts (K := ℝ) near corner P M hP
  obtain rfl : t = t' := Option.some.inj (ht.symm.trans h1)
  obtain ⟨f1, -⟩ := block_facts hP h2 h3 h4 h5 h6 h7 B eta m hm
  have hL := f1 _ hl
  unfold leafTask
  match hcc : leaf.cc with
  | .refine => exact absurd hcc hL.leaf
  | .dense =>
    obtain ⟨L1, e1, n1, m1, g1⟩ := elementsOf_eq hP h3 h4 h5 h6 h7 hL.c1
    obtain ⟨L2, e2, n2, m2, g2⟩ := elementsOf_eq hP h3 h4 h5 h6 h7 hL.c2
    have hN : hi P M leaf.cluster2 - lo M leaf.cluster2 = hi P M leaf.cluster1 - lo M leaf.cluster1 := by
      rcases hL.pos with ⟨q1, q2⟩ | ⟨l, a, b, q1, q2, q3, q4, -⟩
      · rw [q1, q2]
      · rw [q1, q2]
        simp only [hi, lo]
        rw [(mem_leaves.1 q3).2.1, (mem_leaves.1 q4).2.1, Nat.add_mul, Nat.add_sub_cancel_left, Nat.add_mul, Nat.add_sub_cancel_left]
    obtain ⟨F, d1, d2, d3⟩ := denseLeaf_eq junk t op.vd pp _ hpp pair v leaf.cluster1 leaf.cluster2 L1 L2 e1 e2 n1 (n2.trans hN)
      (fun a ha b hb => by
        obtain ⟨k, hk⟩ := List.mem_iff_getElem?.1 ha
        obtain ⟨k', hk'⟩ := List.mem_iff_getElem?.1 hb
        exact hv a (m1 k a hk).1 b (m2 k' b hk').1)
    refine ⟨fun i j => some (F (i * op.vd + j)), by simp only [d1]; rfl, ?_⟩
    intro i hi' j hj
    refine ⟨_, rfl, ?_, fun h => by simp [hcc] at h⟩
    have hidx : j * op.vd + i < op.vd * op.vd := by
      calc j * op.vd + i < j * op.vd + op.vd := by omega
        _ = (j + 1) * op.vd := by ring
        _ ≤ op.vd * op.vd := Nat.mul_le_mul_right _ hj
    intro _
    refine ⟨(d2 _ hidx).1, by rw [hN]; exact (d2 _ hidx).2, ?_⟩
    intro a ha b hb r1 r2 r3 r4 r hr c hc
    exact d3 j hj i hi' _ a (g1 a ha r1 r2) _ b (g2 b hb r3 r4) r hr c hc
  | .lowRank =>
    have hsome : ∃ c1 c2, leaf.cluster1 = some c1 ∧ leaf.cluster2 = some c2 := by
      rcases hL.pos with ⟨q1, q2⟩ | ⟨l, a, b, q1, q2, -⟩
      · have := hL.cc
        rw [hcc, q1, q2, compare_root] at this
        split at this <;> cases this
      · exact ⟨a, b, q1, q2⟩
    obtain ⟨c1, c2, q1, q2⟩ := hsome
    refine ⟨fun i j => (interpolateKernel junk op surf np2 x c1 c2).block (j * np2 * op.nc) (i * np2 * op.nc) (np2 * op.nc) (np2 * op.nc),
      by simp only [lowRankLeaf, q1, q2], ?_⟩
    intro i hi' j hj
    have hfit : ∀ i < op.vd, i * np2 * op.nc + np2 * op.nc ≤ op.vd * op.nc * np2 := fun i hi => by
      calc i * np2 * op.nc + np2 * op.nc = (i + 1) * (op.nc * np2) := by ring
        _ ≤ op.vd * (op.nc * np2) := Nat.mul_le_mul_right _ hi
        _ = _ := by ring
    refine ⟨⟨np2 * op.nc, np2 * op.nc, fun a b =>
      (interpolateKernel junk op surf np2 x c1 c2).at' (i * np2 * op.nc + a) (j * np2 * op.nc + b)⟩, ?_, fun h => by simp [hcc] at h, ?_⟩
    · unfold EMat.block
      exact if_pos ⟨hfit i hi', hfit j hj⟩
    · intro _
      refine ⟨Nat.mul_comm _ _, Nat.mul_comm _ _, c1, c2, q1, q2, ?_⟩
      intro α hα β hβ s hs s' hs'
      rw [← interpolateKernel_entry junk op surf np2 x c1 c2 s s' hs hs' i j α β hi' hj hα hβ]
      show (interpolateKernel junk op surf np2 x c1 c2).at' (i * np2 * op.nc + (α * np2 + s)) (j * np2 * op.nc + (β * np2 + s')) = _
      congr 1 <;> ring

/-- The parallel region: for every order of the tasks. -/
theorem tasks_eq {V W : Type} [NormedAddCommGroup W] (near : V → V → Bool) (corner : Nat → Nat → V) {P M : Nat} (hP : 0 < P)
    {t : Mesh.Tree ℝ} (ht : initElementTree near corner P M = some t) (B : Addr → Ball W) (eta : ℝ) (m : Int) (hm : 0 ≤ m)
    (junk : Nat → Nat → R) (pp : Nat) (hpp : 0 < pp) (pair : Addr → Addr → Option (Nat → Nat → R))
    (v : Addr → Addr → Nat → Nat → R) (hv : ∀ a ∈ leaves P M, ∀ b ∈ leaves P M, pair a b = some (v a b))
    (op : Operator R) (surf : Addr → ℝ × ℝ → ℝ → SurfPt) (np2 : Nat) (x : Nat → ℝ × ℝ) (M0 : LeafMem R) (order : List Nat)
    (ho : order.Perm (List.range (leafPointers (initBlockClusterTree t B eta m)).length)) :
    ∃ mem, order.foldlM (runTask junk t pp pair op surf np2 x (leafPointers (initBlockClusterTree t B eta m))) M0 = some mem ∧
      ∀ k leaf, (leafPointers (initBlockClusterTree t B eta m))[k]? = some leaf → ∀ i < op.vd, ∀ j < op.vd,
        GoodLeaf P M pp op surf np2 x v leaf i j (mem i j k) := by
  set Ls := leafPointers (initBlockClusterTree t B eta m) with hLs
  have good : ∀ leaf ∈ Ls, _ := fun leaf hl =>
    leafTask_eq near corner hP ht B eta m hm junk pp hpp pair v hv op surf np2 x leaf hl
  let tgt : Nat × Nat × Nat → EMat R := fun p =>
    (((Ls[p.2.2]?).bind fun leaf => (leafTask junk t pp pair op surf np2 x leaf)).bind fun G => G p.2.1 p.1).getD ⟨0, 0, fun _ _ => 0⟩
  have htgt : ∀ k leaf, Ls[k]? = some leaf → ∀ G, leafTask junk t pp pair op surf np2 x leaf = some G → ∀ i j f, G j i = some f →
      tgt (i, j, k) = f := by
    intro k leaf hk G hG i j f hf
    simp only [tgt, hk, Option.bind_some, hG, hf, Option.getD_some]
  obtain ⟨mem, e, -, w⟩ := foldlM_write (S := LeafMem R) (ι := Nat × Nat × Nat) (V := EMat R) (fun _ => True)
    (runTask junk t pp pair op surf np2 x Ls) (fun mem p => mem p.1 p.2.1 p.2.2)
    (fun k p => p.1 < op.vd ∧ p.2.1 < op.vd ∧ p.2.2 = k) tgt order (by
      intro mem k hk _
      have hk' : k < Ls.length := List.mem_range.1 (ho.mem_iff.1 hk)
      have hget := List.getElem?_eq_getElem hk'
      obtain ⟨G, hG, hG2⟩ := good _ (List.getElem_mem hk')
      unfold runTask
      rw [hget]
      simp only [Option.bind_eq_bind, Option.bind_some, hG]
      obtain ⟨mem', e, -, w⟩ := foldlM_write (S := LeafMem R) (ι := Nat × Nat × Nat) (V := EMat R) (fun _ => True)
        (fun mem i => (List.range op.vd).foldlM (fun (mem : LeafMem R) j => (G i j).bind fun f =>
          some fun row col l => if row = j ∧ col = i ∧ l = k then f else mem row col l) mem)
        (fun mem p => mem p.1 p.2.1 p.2.2) (fun i p => ∃ j ∈ List.range op.vd, p.1 = j ∧ p.2.1 = i ∧ p.2.2 = k) tgt (List.range op.vd) (by
          intro mem i hi' _
          refine foldlM_write (S := LeafMem R) (ι := Nat × Nat × Nat) (V := EMat R) (fun _ => True) _
            (fun mem p => mem p.1 p.2.1 p.2.2) (fun j p => p.1 = j ∧ p.2.1 = i ∧ p.2.2 = k) tgt (List.range op.vd) ?_ mem trivial
          intro mem j hj _
          obtain ⟨f, hf, -⟩ := hG2 j (List.mem_range.1 hj) i (List.mem_range.1 hi')
          refine ⟨fun row col l => if row = j ∧ col = i ∧ l = k then f else mem row col l, by rw [hf]; rfl, trivial, ?_⟩
          rintro ⟨row, col, l⟩
          constructor
          · rintro ⟨rfl, rfl, rfl⟩
            simp only [and_self, if_true]
            exact (htgt _ _ hget G hG _ _ f hf).symm
          · intro hne
            simp only at hne ⊢
            rw [if_neg hne]) mem trivial
      refine ⟨mem', e, trivial, fun p => ⟨?_, ?_⟩⟩
      · rintro ⟨q1, q2, q3⟩
        exact (w p).1 ⟨p.2.1, List.mem_range.2 q2, p.1, List.mem_range.2 q1, rfl, rfl, q3⟩
      · intro hne
        refine (w p).2 ?_
        rintro ⟨i, hi', j, hj, rfl, rfl, q3⟩
        exact hne ⟨List.mem_range.1 hj, List.mem_range.1 hi', q3⟩) M0 trivial
  refine ⟨mem, e, ?_⟩
  intro k leaf hk i hi' j hj
  have hk' : k < Ls.length := (List.getElem?_eq_some_iff.1 hk).1
  obtain ⟨G, hG, hG2⟩ := good leaf (List.mem_of_getElem? hk)
  obtain ⟨f, hf, hgood⟩ := hG2 i hi' j hj
  have := (w (i, j, k)).1 ⟨k, ho.mem_iff.2 (List.mem_range.2 hk'), hi', hj, rfl⟩
  simp only at this
  rw [this, htgt k leaf hk G hG i j f hf]
  exact hgood

theorem clusterBasis_cast (np mc : Nat) (A T : EMat ℝ) (l : Nat) : ∀ i r,
    clusterBasis np mc (castMat A : EMat R) (castMat T) l i r = algebraMap ℝ R (clusterBasis np mc A T l i r) := by
  induction l with
  | zero => intro i r; rfl
  | succ l ih =>
    intro i r
    simp only [clusterBasis, map_sum, map_mul]
    exact Finset.sum_congr rfl fun b _ => by rw [ih]; rfl

theorem momentQuad_eq (t : Mesh.Tree ℝ) (Q : Quad1 ℝ) (x : Nat → ℝ) (np : Nat) (c b : Addr) (s : Nat) (g : ℝ × ℝ → ℝ) :
    algebraMap ℝ R (momentQuad t Q x np c b s g) = algebraMap ℝ R (getH t b) *
      quadSquare Q fun ξ => algebraMap ℝ R (lagrange2 x np s (inCluster t c b ξ) * g ξ) := by
  simp only [momentQuad, quadSquare, lagrange2, map_mul, map_sum, mul_sum]
  refine sum_congr rfl fun q _ => sum_congr rfl fun q' _ => ?_
  ring

theorem quadSquare_congr (Q : Quad1 ℝ) (f g : ℝ × ℝ → R) (h : ∀ ξ, f ξ = g ξ) : quadSquare Q f = quadSquare Q g := by
  rw [show f = g from funext h]

theorem quadSquare_sum (n : Nat) (Q : Quad1 ℝ) (f : Nat → ℝ × ℝ → R) :
    quadSquare Q (fun ξ => ∑ s ∈ range n, f s ξ) = ∑ s ∈ range n, quadSquare Q (f s) := by
  induction n with
  | zero => simp [quadSquare]
  | succ n ih =>
    rw [sum_range_succ, ← ih]
    simp only [quadSquare, sum_range_succ, mul_add, sum_add_distrib]

theorem quadSquare_mul (Q : Quad1 ℝ) (c : R) (f : ℝ × ℝ → R) : quadSquare Q (fun ξ => c * f ξ) = c * quadSquare Q f := by
  simp only [quadSquare, mul_sum]
  exact sum_congr rfl fun q _ => sum_congr rfl fun q' _ => by ring

theorem quad_product (Q : Quad1 ℝ) (nc n : Nat) (A B : Nat → ℝ × ℝ → ℝ) (l l' : Nat → ℝ × ℝ → ℝ) (f : Nat → Nat → Nat → Nat → R) :
    quadSquare Q (fun ξ => quadSquare Q fun η => ∑ α ∈ range nc, ∑ β ∈ range nc, algebraMap ℝ R (A α ξ * B β η) *
      ∑ s ∈ range n, ∑ s' ∈ range n, algebraMap ℝ R (l s ξ * l' s' η) * f α β s s') =
    ∑ α ∈ range nc, ∑ s ∈ range n, ∑ β ∈ range nc, ∑ s' ∈ range n, quadSquare Q (fun ξ => algebraMap ℝ R (l s ξ * A α ξ)) *
      f α β s s' * quadSquare Q (fun η => algebraMap ℝ R (l' s' η * B β η)) := by
  have e : ∀ ξ, quadSquare Q (fun η => ∑ α ∈ range nc, ∑ β ∈ range nc, algebraMap ℝ R (A α ξ * B β η) *
      ∑ s ∈ range n, ∑ s' ∈ range n, algebraMap ℝ R (l s ξ * l' s' η) * f α β s s') =
      ∑ α ∈ range nc, ∑ s ∈ range n, ∑ β ∈ range nc, ∑ s' ∈ range n,
        (f α β s s' * quadSquare Q (fun η => algebraMap ℝ R (l' s' η * B β η))) * algebraMap ℝ R (l s ξ * A α ξ) := by
    intro ξ
    rw [quadSquare_sum]
    refine sum_congr rfl fun α _ => ?_
    rw [quadSquare_sum, sum_comm]
    refine sum_congr rfl fun β _ => ?_
    rw [quadSquare_congr Q _ (fun η => ∑ s ∈ range n, ∑ s' ∈ range n, (f α β s s' * algebraMap ℝ R (l s ξ * A α ξ)) *
      algebraMap ℝ R (l' s' η * B β η)) fun η => by
        rw [mul_sum]
        refine sum_congr rfl fun s _ => ?_
        rw [mul_sum]
        refine sum_congr rfl fun s' _ => ?_
        simp only [map_mul]
        ring]
    rw [quadSquare_sum]
    refine sum_congr rfl fun s _ => ?_
    rw [quadSquare_sum]
    refine sum_congr rfl fun s' _ => ?_
    rw [quadSquare_mul]
    ring
  rw [quadSquare_congr Q _ _ e, quadSquare_sum]
  refine sum_congr rfl fun α _ => ?_
  rw [quadSquare_sum]
  refine sum_congr rfl fun s _ => ?_
  rw [quadSquare_sum]
  refine sum_congr rfl fun β _ => ?_
  rw [quadSquare_sum]
  refine sum_congr rfl fun s' _ => ?_
  rw [quadSquare_mul]
  ring

/-- C63: for every mesh, every operator with the moment matrices that belong to it, every number of distinct interpolation points and
every order of the tasks, the assembly of an H2-matrix succeeds.  The parts of the result fit together (`WellFormed`, which is what the
product needs, C38 and C39), and in the matrix `A` which is represented by the result, the entry for the ansatz function `r` in
component `i` on element `a` and the ansatz function `c` in component `j` on element `b` is
* the entry of the matrix of the pair `(a, b)` (as in the dense assembly, C48), if the leaf that contains the entry is dense,
* the far field entry for the clusters of the leaf, if this leaf is compressed. -/
theorem C63_assembly {V W : Type} [NormedAddCommGroup W] (near : V → V → Bool) (corner : Nat → Nat → V) (P M : Nat) (hP : 0 < P)
    (t : Mesh.Tree ℝ) (ht : initElementTree near corner P M = some t) (op : Operator R) (hvd : 0 < op.vd) (hnc : 0 < op.nc)
    (T : (P M d a i : Nat) → ℝ × ℝ → ℝ) (mom : MomentEnv → (p cl r np : Nat) → List (EMat ℝ)) (hmom : MomentsFor op.vd op.nc T mom)
    (B : Addr → Ball W) (eta : ℝ) (minLevel : Int) (hm : 0 ≤ minLevel) (p : Nat) (trans : EMat R)
    (htr : trans.rows = op.vd * ((p + 1) * (p + 1) * t.nElements)) (surf : Addr → ℝ × ℝ → ℝ → SurfPt)
    (pair : Addr → Addr → Option (Nat → Nat → R)) (v : Addr → Addr → Nat → Nat → R)
    (hv : ∀ a b, IsNode P M a → IsNode P M b → pair a b = some (v a b)) (E : MomentEnv) (n : Nat) (hn : 0 < n)
    (hx : Distinct (E.pts n) n) (junk : Nat → Nat → R) (junkE junkT : Nat → Nat → ℝ) (M0 : LeafMem R) (order : List Nat)
    (ho : order.Perm (List.range (leafPointers (initBlockClusterTree t B eta minLevel)).length)) :
    ∃ H, initH2Matrix junk junkE junkT M0 op t B eta minLevel p trans surf pair E mom n order = some H ∧
      H.t = t ∧ H.vd = op.vd ∧ H.trans = trans ∧ WellFormed H B eta (n * n) op.nc ∧
      ∀ A, Represents H (n * n) A → ∀ a b, IsNode P M a → IsNode P M b → ∀ i < op.vd, ∀ j < op.vd,
        ∀ r < (p + 1) * (p + 1), ∀ c < (p + 1) * (p + 1),
        ∀ leaf ∈ leafPointers (initBlockClusterTree t B eta minLevel),
        Covers t ((p + 1) * (p + 1)) leaf ((p + 1) * (p + 1) * t.id a + r) ((p + 1) * (p + 1) * t.id b + c) →
        let entry := A (i * ((p + 1) * (p + 1) * t.nElements) + ((p + 1) * (p + 1) * t.id a + r))
          (j * ((p + 1) * (p + 1) * t.nElements) + ((p + 1) * (p + 1) * t.id b + c))
        (leaf.cc = .dense → entry = v a b (i * ((p + 1) * (p + 1)) + r) (j * ((p + 1) * (p + 1)) + c)) ∧
        (leaf.cc = .lowRank → ∃ c1 c2, leaf.cluster1 = some c1 ∧ leaf.cluster2 = some c2 ∧
          entry = farEntry t op surf (E.GL (gaussIndex n p)) (E.pts n) n (T p M) c1 c2 a b i j r c) := by
  obtain ⟨t', h1, h2, h3, h4, h5, h6, h7⟩ := tree_facts (K := ℝ) near corner P M hP
  obtain rfl : t = t' := Option.some.inj (ht.symm.trans h1)
  set pp := (p + 1) * (p + 1) with hppdef
  have hpp : 0 < pp := by positivity
  obtain ⟨mem, e, good⟩ := tasks_eq near corner hP ht B eta minLevel hm junk pp hpp pair v
    (fun a ha b hb => hv a b (mem_leaves.1 ha) (mem_leaves.1 hb)) op surf (n * n) (interpolationPoints2D n (E.pts n)) M0 order ho
  set r := min minLevel.toNat M with hr
  have hcl : (if (t.maxLevel : Int) - minLevel < 0 then (0 : Int) else (t.maxLevel : Int) - minLevel).toNat = M - r := by
    rw [h4]; split <;> omega
  have hrf : (if minLevel > (t.maxLevel : Int) then (t.maxLevel : Int) else minLevel).toNat = r := by
    rw [h4]; split <;> omega
  obtain ⟨f1, -⟩ := block_facts hP h2 h3 h4 h5 h6 h7 B eta minLevel hm
  have hmomd : ∀ d < op.vd, _ := fun d hd =>
    hmom V near corner P M hP E junkE junkT p n hx t ht r (by omega) d hd
  let H : Mat ℝ R := ⟨t, minLevel, pp, op.vd, fun i => castMat ((mom E p (M - r) r n).getD i ⟨0, 0, fun _ _ => 0⟩),
    castMat (computeTransferMatrices E.pts junkE junkT n),
    fun i j => (leafPointers (initBlockClusterTree t B eta minLevel)).zipIdx.map fun x => (x.1, mem i j x.2), trans⟩
  have hH : initH2Matrix junk junkE junkT M0 op t B eta minLevel p trans surf pair E mom n order = some H := by
    unfold initH2Matrix
    simp only [Option.bind_eq_bind]
    rw [← hppdef, e]
    simp only [Option.bind_some, hcl, hrf]
    rfl
  have hcs : clusterSize H = pp * 4 ^ r := by
    show pp * 4 ^ min minLevel.toNat t.maxLevel = _
    rw [h4]
  have hmoment : ∀ d < op.vd, ∃ A, H.moment d = castMat A ∧ (mom E p (M - r) r n)[d]? = some A := by
    intro d hd
    obtain ⟨A, a1, -⟩ := hmomd d hd
    refine ⟨A, ?_, a1⟩
    show castMat ((mom E p (M - r) r n).getD d ⟨0, 0, fun _ _ => 0⟩) = _
    rw [List.getD_eq_getElem?_getD, a1]
    rfl
  have leafmem : ∀ i j, ∀ x ∈ H.leaves i j, ∃ k, (leafPointers (initBlockClusterTree t B eta minLevel))[k]? = some x.1 ∧
      x.2 = mem i j k := by
    intro i j x hx
    obtain ⟨⟨y, k⟩, hy, rfl⟩ := List.mem_map.1 hx
    exact ⟨k, List.mem_zipIdx_iff_getElem?.1 hy, rfl⟩
  have hwf : WellFormed H B eta (n * n) op.nc := by
    refine ⟨by positivity, hnc, hvd, hpp, hm, ⟨rfl, rfl⟩, ?_, ?_, ?_, ?_, htr⟩
    · intro d hd
      obtain ⟨A, a1, a2⟩ := hmoment d hd
      obtain ⟨A', b1, b2, b3, -⟩ := hmomd d hd
      obtain rfl : A = A' := Option.some.inj (a2.symm.trans b1)
      rw [a1, hcs]
      exact ⟨b2, b3⟩
    · intro i _ j _
      show ((leafPointers (initBlockClusterTree t B eta minLevel)).zipIdx.map fun x => (x.1, mem i j x.2)).map Prod.fst = _
      rw [List.map_map]
      exact List.zipIdx_map_fst _ _
    · intro i hi' j hj x hx hd
      obtain ⟨k, k1, k2⟩ := leafmem i j x hx
      obtain ⟨g1, g2, -⟩ := (good k x.1 k1 i hi' j hj).1 hd
      have hL := f1 x.1 (List.mem_of_getElem? k1)
      rw [hL.rows, hL.cols, k2, g1, g2]
      exact ⟨congrArg some (Nat.mul_comm _ _), congrArg some (Nat.mul_comm _ _)⟩
    · intro i hi' j hj x hx hd
      obtain ⟨k, k1, k2⟩ := leafmem i j x hx
      obtain ⟨g1, g2, -⟩ := (good k x.1 k1 i hi' j hj).2 hd
      rw [k2]
      exact ⟨g1, g2⟩
  refine ⟨H, hH, rfl, rfl, rfl, hwf, ?_⟩
  intro A hA a b ha hb i hi' j hj rr hrr c hc leaf hleaf hcov
  obtain ⟨k, hk⟩ := List.mem_iff_getElem?.1 hleaf
  have hL := f1 leaf hleaf
  obtain ⟨a1, a2, -, a4, a5⟩ := cluster_iter hP h3 h4 h5 h6 h7 hL.c1
  obtain ⟨b1, b2, -, b4, b5⟩ := cluster_iter hP h3 h4 h5 h6 h7 hL.c2
  have e1 : rowStart t pp leaf = some (pp * lo M leaf.cluster1) := by unfold rowStart; rw [a1]; rfl
  have e2 : rowEnd t pp leaf = some (pp * hi P M leaf.cluster1) := by unfold rowEnd; rw [a2]; rfl
  have e3 : colStart t pp leaf = some (pp * lo M leaf.cluster2) := by unfold colStart; rw [b1]; rfl
  have e4 : colEnd t pp leaf = some (pp * hi P M leaf.cluster2) := by unfold colEnd; rw [b2]; rfl
  have hrep := hA i hi' j hj (leaf, mem i j k) (List.mem_map.2 ⟨(leaf, k), List.mem_zipIdx_iff_getElem?.2 hk, rfl⟩)
    (pp * t.id a + rr) (pp * t.id b + c) _ _ hcov e1 e3
  obtain ⟨r0, r1, c0, c1, q1, q2, q3, q4, z1, z2, z3, z4⟩ := hcov
  rw [e1, Option.some_inj] at q1
  rw [e2, Option.some_inj] at q2
  rw [e3, Option.some_inj] at q3
  rw [e4, Option.some_inj] at q4
  subst q1 q2 q3 q4
  have hida : t.id a = pathId a.1 a.2 := (h2 M le_rfl a (mem_leaves.2 ha)).1
  have hidb : t.id b = pathId b.1 b.2 := (h2 M le_rfl b (mem_leaves.2 hb)).1
  have lowb : ∀ lo x rr : Nat, rr < pp → pp * lo ≤ pp * x + rr → lo ≤ x := by
    intro lo x rr hrr h
    by_contra hcon
    have : pp * (x + 1) ≤ pp * lo := Nat.mul_le_mul_left _ (by omega)
    rw [Nat.mul_succ] at this
    omega
  have uppb : ∀ hi x rr : Nat, pp * x + rr < pp * hi → x < hi := by
    intro hi x rr h
    by_contra hcon
    have : pp * hi ≤ pp * x := Nat.mul_le_mul_left _ (by omega)
    omega
  have w1 := lowb _ _ _ hrr z1
  have w2 := uppb _ _ _ z2
  have w3 := lowb _ _ _ hc z3
  have w4 := uppb _ _ _ z4
  have s1 : pp * t.id a + rr - pp * lo M leaf.cluster1 = pp * (t.id a - lo M leaf.cluster1) + rr := by
    rw [Nat.mul_sub]
    have := Nat.mul_le_mul_left pp w1
    omega
  have s2 : pp * t.id b + c - pp * lo M leaf.cluster2 = pp * (t.id b - lo M leaf.cluster2) + c := by
    rw [Nat.mul_sub]
    have := Nat.mul_le_mul_left pp w3
    omega
  intro entry
  have hentry : entry = leafEntry (n * n) (clusterSize H) (H.moment i) (H.moment j) H.transfer (leaf.cc = .dense)
      (leafLevel t minLevel leaf) (mem i j k) (pp * (t.id a - lo M leaf.cluster1) + rr) (pp * (t.id b - lo M leaf.cluster2) + c) := by
    rw [← s1, ← s2]
    exact hrep
  constructor
  · intro hd
    rw [hentry]
    unfold leafEntry
    rw [if_pos (by simp [hd])]
    rw [hida, hidb] at *
    exact ((good k leaf hk i hi' j hj).1 hd).2.2 a (mem_leaves.2 ha) b (mem_leaves.2 hb) w1 w2 w3 w4 rr hrr c hc
  · intro hd
    obtain ⟨g1, g2, c1, c2, q1, q2, g3⟩ := (good k leaf hk i hi' j hj).2 hd
    refine ⟨c1, c2, q1, q2, ?_⟩
    obtain ⟨l, d1, d2, y1, y2, y3, y4, y5, y6⟩ : ∃ l a b, leaf.cluster1 = some a ∧ leaf.cluster2 = some b ∧
        a ∈ leaves P l ∧ b ∈ leaves P l ∧ l ≤ M ∧ minLevel ≤ (M : Int) - l := by
      rcases hL.pos with ⟨q1', q2'⟩ | h
      · rw [q1] at q1'; cases q1'
      · exact h
    obtain rfl : c1 = d1 := Option.some.inj (q1.symm.trans y1)
    obtain rfl : c2 = d2 := Option.some.inj (q2.symm.trans y2)
    have hlev : t.level c1 = l := by
      have := (h2 l (by omega) c1 y3).2.1
      rwa [(mem_leaves.1 y3).2.1] at this
    have hll : l + leafLevel t minLevel leaf + r = M := by
      unfold leafLevel
      rw [q1]
      simp only
      rw [hlev, h4]
      omega
    rw [hentry]
    unfold leafEntry
    rw [if_neg (by simp [hd]), g1, g2]
    obtain ⟨A1, u1, u2⟩ := hmoment i hi'
    obtain ⟨A1', u3, -, -, u4⟩ := hmomd i hi'
    obtain rfl : A1 = A1' := Option.some.inj (u2.symm.trans u3)
    obtain ⟨A2, v1, v2⟩ := hmoment j hj
    obtain ⟨A2', v3, -, -, v4⟩ := hmomd j hj
    obtain rfl : A2 = A2' := Option.some.inj (v2.symm.trans v3)
    obtain ⟨L1, l1, -, -, l4⟩ := elementsOf_eq hP h3 h4 h5 h6 h7 hL.c1
    obtain ⟨L2, m1, -, -, m4⟩ := elementsOf_eq hP h3 h4 h5 h6 h7 hL.c2
    have hl4 := l4 a (mem_leaves.2 ha) (by rw [← hida]; exact w1) (by rw [← hida]; exact w2)
    have hm4 := m4 b (mem_leaves.2 hb) (by rw [← hidb]; exact w3) (by rw [← hidb]; exact w4)
    rw [q1] at l1
    rw [q2] at m1
    have cb1 : ∀ α < op.nc, ∀ s < n * n, clusterBasis (n * n) (clusterSize H) (H.moment i) H.transfer (leafLevel t minLevel leaf)
        (α * (n * n) + s) (pp * (t.id a - lo M leaf.cluster1) + rr) = algebraMap ℝ R (getH t a) *
        quadSquare (E.GL (gaussIndex n p)) fun ξ => algebraMap ℝ R (lagrange2 (E.pts n) n s (inCluster t c1 a ξ) * T p M i α rr ξ) := by
      intro α hα s hs
      rw [u1, hcs]
      show clusterBasis _ _ (castMat A1) (castMat _) _ _ _ = _
      rw [clusterBasis_cast, hida, u4 l _ hll c1 (mem_leaves.1 y3) L1 l1 _ a hl4 α hα s hs rr hrr, momentQuad_eq]
    have cb2 : ∀ β < op.nc, ∀ s < n * n, clusterBasis (n * n) (clusterSize H) (H.moment j) H.transfer (leafLevel t minLevel leaf)
        (β * (n * n) + s) (pp * (t.id b - lo M leaf.cluster2) + c) = algebraMap ℝ R (getH t b) *
        quadSquare (E.GL (gaussIndex n p)) fun ξ => algebraMap ℝ R (lagrange2 (E.pts n) n s (inCluster t c2 b ξ) * T p M j β c ξ) := by
      intro β hβ s hs
      rw [v1, hcs]
      show clusterBasis _ _ (castMat A2) (castMat _) _ _ _ = _
      rw [clusterBasis_cast, hidb, v4 l _ hll c2 (mem_leaves.1 y4) L2 m1 _ b hm4 β hβ s hs c hc, momentQuad_eq]
    unfold farEntry interpolate
    rw [quad_product, H2.sum_range_mul, mul_sum]
    refine sum_congr rfl fun α hα => ?_
    rw [mul_sum]
    refine sum_congr rfl fun s hs => ?_
    rw [H2.sum_range_mul, mul_sum]
    refine sum_congr rfl fun β hβ => ?_
    rw [mul_sum]
    refine sum_congr rfl fun s' hs' => ?_
    rw [cb1 α (mem_range.1 hα) s (mem_range.1 hs), cb2 β (mem_range.1 hβ) s' (mem_range.1 hs'),
      g3 α (mem_range.1 hα) β (mem_range.1 hβ) s (mem_range.1 hs) s' (mem_range.1 hs')]
    simp only [interpolationPoints2D, map_mul]
    ring

/-- C63: the interpolant agrees with the function in the interpolation points, and everywhere if the function is a polynomial of degree
less than the number of points in each of the four coordinates. -/
theorem C63_interpolant (x : Nat → ℝ) (n : Nat) (hx : Distinct x n) (f : ℝ × ℝ → ℝ × ℝ → R) :
    (∀ i < n, ∀ j < n, ∀ k < n, ∀ l < n, interpolate x n f (x i, x j) (x k, x l) = f (x i, x j) (x k, x l)) ∧
    ∀ (m : Nat) (coef : Nat → R) (p : Nat → Nat → Polynomial ℝ), (∀ k < m, ∀ d < 4, (p k d).degree < n) →
      (∀ y z, f y z = ∑ k ∈ range m, coef k * algebraMap ℝ R
        ((p k 0).eval y.1 * (p k 1).eval y.2 * ((p k 2).eval z.1 * (p k 3).eval z.2))) →
      ∀ y z, interpolate x n f y z = f y z := by
  have split : ∀ (g : Nat → Nat → R), ∑ s ∈ range (n * n), g (s / n) (s % n) = ∑ i ∈ range n, ∑ j ∈ range n, g i j := by
    intro g
    rw [H2.sum_range_mul]
    refine sum_congr rfl fun i _ => sum_congr rfl fun j hj => ?_
    have hj := mem_range.1 hj
    rw [Nat.mul_comm i n, Nat.mul_add_div (by omega), Nat.div_eq_of_lt hj, Nat.mul_add_mod, Nat.mod_eq_of_lt hj, Nat.add_zero]
  have expand : ∀ (f : ℝ × ℝ → ℝ × ℝ → R) y z, interpolate x n f y z = ∑ i ∈ range n, ∑ j ∈ range n, ∑ k ∈ range n, ∑ l ∈ range n,
      algebraMap ℝ R (lagrange x n i y.1 * lagrange x n j y.2 * (lagrange x n k z.1 * lagrange x n l z.2)) *
        f (x i, x j) (x k, x l) := by
    intro f y z
    unfold interpolate lagrange2
    rw [split (fun i j => ∑ s' ∈ range (n * n), algebraMap ℝ R (lagrange x n i y.1 * lagrange x n j y.2 *
      (lagrange x n (s' / n) z.1 * lagrange x n (s' % n) z.2)) * f (x i, x j) (x (s' / n), x (s' % n)))]
    refine sum_congr rfl fun i _ => sum_congr rfl fun j _ => ?_
    exact split (fun k l => algebraMap ℝ R (lagrange x n i y.1 * lagrange x n j y.2 *
      (lagrange x n k z.1 * lagrange x n l z.2)) * f (x i, x j) (x k, x l))
  constructor
  · intro i hi j hj k hk l hl
    rw [expand, sum_eq_single i, sum_eq_single j, sum_eq_single k, sum_eq_single l]
    · simp only
      rw [lagrange_delta x n hx i i hi hi, lagrange_delta x n hx j j hj hj, lagrange_delta x n hx k k hk hk,
        lagrange_delta x n hx l l hl hl]
      simp
    · intro b hb hne
      rw [lagrange_delta x n hx b l (mem_range.1 hb) hl, if_neg hne]; simp
    · intro h; exact absurd (mem_range.2 hl) h
    · intro b hb hne
      simp only [lagrange_delta x n hx b k (mem_range.1 hb) hk, if_neg hne]; simp
    · intro h; exact absurd (mem_range.2 hk) h
    · intro b hb hne
      simp only [lagrange_delta x n hx b j (mem_range.1 hb) hj, if_neg hne]; simp
    · intro h; exact absurd (mem_range.2 hj) h
    · intro b hb hne
      simp only [lagrange_delta x n hx b i (mem_range.1 hb) hi, if_neg hne]; simp
    · intro h; exact absurd (mem_range.2 hi) h
  · intro m coef p hp hf y z
    have four : ∀ A B C D : Nat → ℝ, ∑ i ∈ range n, ∑ j ∈ range n, ∑ k ∈ range n, ∑ l ∈ range n, A i * B j * (C k * D l) =
        (∑ i ∈ range n, A i) * (∑ i ∈ range n, B i) * ((∑ i ∈ range n, C i) * ∑ i ∈ range n, D i) := by
      intro A B C D
      simp only [← mul_sum, ← sum_mul]
    have e : ∀ k < m, interpolate x n (fun y z => coef k * algebraMap ℝ R
          ((p k 0).eval y.1 * (p k 1).eval y.2 * ((p k 2).eval z.1 * (p k 3).eval z.2))) y z =
        coef k * algebraMap ℝ R ((p k 0).eval y.1 * (p k 1).eval y.2 * ((p k 2).eval z.1 * (p k 3).eval z.2)) := by
      intro k hk
      rw [expand, ← lagrange_reproduce x n hx (p k 0) (hp k hk 0 (by omega)) y.1,
        ← lagrange_reproduce x n hx (p k 1) (hp k hk 1 (by omega)) y.2,
        ← lagrange_reproduce x n hx (p k 2) (hp k hk 2 (by omega)) z.1, ← lagrange_reproduce x n hx (p k 3) (hp k hk 3 (by omega)) z.2,
        ← four]
      simp only [map_sum, mul_sum]
      refine sum_congr rfl fun i _ => sum_congr rfl fun j _ => sum_congr rfl fun k' _ => sum_congr rfl fun l _ => ?_
      simp only [map_mul]
      ring
    have lin : ∀ (m : Nat) (g : Nat → ℝ × ℝ → ℝ × ℝ → R), interpolate x n (fun y z => ∑ k ∈ range m, g k y z) y z =
        ∑ k ∈ range m, interpolate x n (g k) y z := by
      intro m g
      induction m with
      | zero => simp [interpolate]
      | succ m ih =>
        rw [sum_range_succ, ← ih]
        simp only [interpolate, sum_range_succ, mul_add, sum_add_distrib]
    rw [show f = fun y z => ∑ k ∈ range m, coef k * algebraMap ℝ R
        ((p k 0).eval y.1 * (p k 1).eval y.2 * ((p k 2).eval z.1 * (p k 3).eval z.2)) from funext fun y => funext fun z => hf y z,
      lin]
    exact sum_congr rfl fun k hk => e k (mem_range.1 hk)

/-- The surface point of an element point does not depend on the cluster used to compute it, up to local coordinates and weight. -/
theorem map2surface_cluster (t : Mesh.Tree ℝ) (geo : Nat → ℝ × ℝ → V3 × V3 × V3) (c a : Addr) (hp : t.patch a = t.patch c) (ξ : ℝ × ℝ)
    (w : ℝ) : SuperSpace.map2surface t geo c (inCluster t c a ξ) w =
      { SuperSpace.map2surface t geo a ξ w with xi := inCluster t c a ξ } := by
  have h : getH t c ≠ 0 := by unfold getH; positivity
  have e : ((t.llc c).1 + getH t c * (inCluster t c a ξ).1, (t.llc c).2 + getH t c * (inCluster t c a ξ).2) =
      ((t.llc a).1 + getH t a * ξ.1, (t.llc a).2 + getH t a * ξ.2) := by
    simp only [inCluster, mapToReferenceElement]
    refine Prod.ext ?_ ?_ <;> · simp only; field_simp; ring
  unfold SuperSpace.map2surface
  simp only
  rw [e, hp]

/-- C63: all far field kernels of the modelled operators depend on position and tangents only. -/
theorem C63_position_only (k : ℂ) : PositionOnly Operator.laplaceSL ∧ PositionOnly Operator.laplaceDL ∧
    PositionOnly Operator.laplaceADL ∧ PositionOnly Operator.laplaceHyp ∧ PositionOnly (Operator.helmholtzSL k) ∧
    PositionOnly (Operator.helmholtzDL k) ∧ PositionOnly (Operator.helmholtzADL k) ∧ PositionOnly (Operator.helmholtzHyp k) ∧
    PositionOnly (Operator.maxwellSL k) :=
  ⟨fun _ _ _ _ _ _ _ _ => rfl, fun _ _ _ _ _ _ _ _ => rfl, fun _ _ _ _ _ _ _ _ => rfl, fun _ _ _ _ _ _ _ _ => rfl,
    fun _ _ _ _ _ _ _ _ => rfl, fun _ _ _ _ _ _ _ _ => rfl, fun _ _ _ _ _ _ _ _ => rfl, fun _ _ _ _ _ _ _ _ => rfl,
    fun _ _ _ _ _ _ _ _ => rfl⟩

/-- C63: far field and near field are consistent.  If the interpolation of the far field kernels is exact at the quadrature points, then
the far field entry is the quadrature of the integrand of the dense assembly over the two elements. -/
theorem C63_consistent {V : Type} (near : V → V → Bool) (corner : Nat → Nat → V) (P M : Nat) (hP : 0 < P)
    (t : Mesh.Tree ℝ) (ht : initElementTree near corner P M = some t) (geo : Nat → ℝ × ℝ → V3 × V3 × V3)
    (hgeo : Spec.RegularPatches P geo) (op : Operator R) (T : (P M d a i : Nat) → ℝ × ℝ → ℝ)
    (hop : Contracts op T) (hpos : PositionOnly op) (Q : Quad1 ℝ) (hQ : ∀ q < Q.size, 0 ≤ Q.xi q ∧ Q.xi q ≤ 1) (x : Nat → ℝ) (n p : Nat)
    (jr : Nat → ℝ) (jk : Nat → R) (l : Nat) (hl : l ≤ M) (c1 c2 : Addr) (h1 : IsNode P l c1) (h2 : IsNode P l c2) (L1 L2 : List Addr)
    (hL1 : clusterElements t c1 = some L1) (hL2 : clusterElements t c2 = some L2) (a b : Addr) (ha : a ∈ L1) (hb : b ∈ L2)
    (hint : ∀ q < Q.size, ∀ q' < Q.size, ∀ s < Q.size, ∀ s' < Q.size, ∀ k l, interpolate x n
        (fun y z => op.fmm (SuperSpace.map2surface t geo c1 y 1) (SuperSpace.map2surface t geo c2 z 1) k l)
        (inCluster t c1 a (Q.xi q, Q.xi q')) (inCluster t c2 b (Q.xi s, Q.xi s')) =
      op.fmm (SuperSpace.map2surface t geo c1 (inCluster t c1 a (Q.xi q, Q.xi q')) 1)
        (SuperSpace.map2surface t geo c2 (inCluster t c2 b (Q.xi s, Q.xi s')) 1) k l)
    (i j : Nat) (hi : i < op.vd) (hj : j < op.vd) (r c : Nat) (hr : r < (p + 1) * (p + 1)) (hc : c < (p + 1) * (p + 1)) :
    farEntry t op (SuperSpace.map2surface t geo) Q x n (T p M) c1 c2 a b i j r c =
      directEntry t op (SuperSpace.map2surface t geo) Q p M jr jk a b (i * ((p + 1) * (p + 1)) + r) (j * ((p + 1) * (p + 1)) + c) := by
  obtain ⟨t', k1, k2, -⟩ := tree_facts (K := ℝ) near corner P M hP
  obtain rfl : t = t' := Option.some.inj (ht.symm.trans k1)
  obtain ⟨t', e1, e2⟩ := C25_cluster_range (K := ℝ) near corner P M hP
  obtain rfl : t = t' := Option.some.inj (ht.symm.trans e1)
  have patch : ∀ c, IsNode P l c → ∀ L, clusterElements t c = some L → ∀ a ∈ L, IsNode P M a ∧ t.patch a = t.patch c := by
    intro c hc L hL a ha
    obtain ⟨L', u1, u2, -⟩ := e2 l c hl hc
    obtain rfl : L = L' := Option.some.inj (hL.symm.trans u1)
    obtain ⟨path, q1, q2, rfl⟩ := (u2 a).1 ha
    have hb : IsNode P M (c.1, path ++ c.2) := ⟨hc.1, by simp [q1, hc.2.1]; omega, by
      intro x hx
      rcases List.mem_append.1 hx with h | h
      · exact q2 x h
      · exact hc.2.2 x h⟩
    have v1 := (k2 M le_rfl _ (mem_leaves.2 hb)).2.2.1
    have v2 := (k2 l hl c (mem_leaves.2 hc)).2.2.1
    exact ⟨hb, by rw [v1, v2]⟩
  obtain ⟨n1, p1⟩ := patch c1 h1 L1 hL1 a ha
  obtain ⟨n2, p2⟩ := patch c2 h2 L2 hL2 b hb
  have hreg := node_regular near corner P M hP t ht geo hgeo M le_rfl
  have hsq : ∀ q ∈ range Q.size, ∀ q' ∈ range Q.size, Spec.ClosedSquare (Q.xi q, Q.xi q') := fun q hq q' hq' =>
    ⟨(hQ q (mem_range.1 hq)).1, (hQ q (mem_range.1 hq)).2, (hQ q' (mem_range.1 hq')).1, (hQ q' (mem_range.1 hq')).2⟩
  unfold farEntry directEntry quadSquare
  simp only [mul_sum]
  refine sum_congr rfl fun q hq => sum_congr rfl fun q' hq' => sum_congr rfl fun s hs => sum_congr rfl fun s' hs' => ?_
  rw [(hop jr jk p M (SuperSpace.map2surface t geo a (Q.xi q, Q.xi q') (getH t a * (Q.w q * Q.w q')))
    (SuperSpace.map2surface t geo b (Q.xi s, Q.xi s') (getH t b * (Q.w s * Q.w s'))) (fun _ _ => 0) (hreg a n1 _ (hsq q hq q' hq') _)
    (hreg b n2 _ (hsq s hs s' hs') _)).1
    i hi j hj r hr c hc, zero_add, mul_sum]
  refine sum_congr rfl fun α _ => ?_
  rw [mul_sum]
  refine sum_congr rfl fun β _ => ?_
  rw [hint q (mem_range.1 hq) q' (mem_range.1 hq') s (mem_range.1 hs) s' (mem_range.1 hs'), map2surface_cluster t geo c1 a p1,
    map2surface_cluster t geo c2 b p2]
  have e := hpos (SuperSpace.map2surface t geo a (Q.xi q, Q.xi q') (getH t a * (Q.w q * Q.w q')))
    (SuperSpace.map2surface t geo b (Q.xi s, Q.xi s') (getH t b * (Q.w s * Q.w s'))) (inCluster t c1 a (Q.xi q, Q.xi q'))
    (inCluster t c2 b (Q.xi s, Q.xi s')) 1 1 (i * op.nc + α) (j * op.nc + β)
  simp only [SuperSpace.map2surface] at e ⊢
  rw [e]
  simp only [map_mul]
  ring

/-- C63: assembly and product together.  For every order of the assembly tasks and all schedules of the products there is one matrix `A`
such that the product with the assembled H2-matrix is `res + alpha * Tᵀ A T * rhs`, and every entry of `A` is that of the dense assembly or
the far field entry of a pair of clusters that satisfies the admissibility condition. -/
theorem C63_product {V W : Type} [NormedAddCommGroup W] (near : V → V → Bool) (corner : Nat → Nat → V) (P M : Nat) (hP : 0 < P)
    (t : Mesh.Tree ℝ) (ht : initElementTree near corner P M = some t) (op : Operator R) (hvd : 0 < op.vd) (hnc : 0 < op.nc)
    (T : (P M d a i : Nat) → ℝ × ℝ → ℝ) (mom : MomentEnv → (p cl r np : Nat) → List (EMat ℝ)) (hmom : MomentsFor op.vd op.nc T mom)
    (B : Addr → Ball W) (hB : ∀ l ≤ M, ∀ a, IsNode P l a → 0 ≤ (B a).rad) (eta : ℝ) (minLevel : Int)
    (hm : 0 ≤ minLevel) (p : Nat) (trans : EMat R)
    (htr : trans.rows = op.vd * ((p + 1) * (p + 1) * t.nElements)) (surf : Addr → ℝ × ℝ → ℝ → SurfPt)
    (pair : Addr → Addr → Option (Nat → Nat → R)) (v : Addr → Addr → Nat → Nat → R)
    (hv : ∀ a b, IsNode P M a → IsNode P M b → pair a b = some (v a b)) (E : MomentEnv) (n : Nat) (hn : 0 < n)
    (hx : Distinct (E.pts n) n) :
    ∃ A : Nat → Nat → R,
      (∀ a b, IsNode P M a → IsNode P M b → ∀ i < op.vd, ∀ j < op.vd, ∀ r < (p + 1) * (p + 1), ∀ c < (p + 1) * (p + 1),
        let entry := A (i * ((p + 1) * (p + 1) * t.nElements) + ((p + 1) * (p + 1) * t.id a + r))
          (j * ((p + 1) * (p + 1) * t.nElements) + ((p + 1) * (p + 1) * t.id b + c))
        entry = v a b (i * ((p + 1) * (p + 1)) + r) (j * ((p + 1) * (p + 1)) + c) ∨
        ∃ l ≤ M, ∃ c1 c2, IsNode P l c1 ∧ IsNode P l c2 ∧
          (∃ L1, clusterElements t c1 = some L1 ∧ a ∈ L1) ∧ (∃ L2, clusterElements t c2 = some L2 ∧ b ∈ L2) ∧
          max (B c1).rad (B c2).rad < eta * (‖(B c1).mid - (B c2).mid‖ - (B c1).rad - (B c2).rad) ∧
          entry = farEntry t op surf (E.GL (gaussIndex n p)) (E.pts n) n (T p M) c1 c2 a b i j r c) ∧
      ∀ (junk : Nat → Nat → R) (junkE junkT : Nat → Nat → ℝ) (M0 : LeafMem R) (order : List Nat),
        order.Perm (List.range (leafPointers (initBlockClusterTree t B eta minLevel)).length) →
        ∃ H, initH2Matrix junk junkE junkT M0 op t B eta minLevel p trans surf pair E mom n order = some H ∧
        ∀ (junk : Nat → Nat → R) (S : Schedules H) (rhs res : EMat R) (alpha : R),
          rhs.rows = trans.cols → res.rows = trans.cols → res.cols = rhs.cols →
          ∃ res', run junk H S rhs res alpha = some res' ∧ res'.rows = res.rows ∧ res'.cols = res.cols ∧
          ∀ i < res.rows, ∀ c < res.cols, res'.at' i c = res.at' i c + alpha * ∑ r ∈ range trans.rows,
            ∑ k ∈ range trans.rows, ∑ d ∈ range trans.cols, trans.at' r i * A r k * trans.at' k d * rhs.at' d c := by
  set pp := (p + 1) * (p + 1) with hppdef
  have hpp : 0 < pp := by positivity
  obtain ⟨t', h1, h2, h3, h4, h5, h6, h7⟩ := tree_facts (K := ℝ) near corner P M hP
  obtain rfl : t = t' := Option.some.inj (ht.symm.trans h1)
  obtain ⟨t', g1, -, gcov⟩ := C36_partition (K := ℝ) near corner P M pp hP hpp B eta minLevel hm
  obtain rfl : t = t' := Option.some.inj (ht.symm.trans g1)
  obtain ⟨t', d1, dadm⟩ := C37_admissible (K := ℝ) near corner P M hP B hB eta minLevel hm
  obtain rfl : t = t' := Option.some.inj (ht.symm.trans d1)
  obtain ⟨t', u1, -, L0, u2, u3, -, u4⟩ := C20_uniform_mesh (K := ℝ) near corner P M hP
  obtain rfl : t = t' := Option.some.inj (ht.symm.trans u1)
  have hel := elements_eq t P M hP h3 h6
  obtain rfl : L0 = leaves P M := Option.some.inj (u2.symm.trans hel)
  have idlt : ∀ a, IsNode P M a → t.id a < t.nElements := by
    intro a ha
    obtain ⟨k, hk, rfl⟩ := List.mem_iff_getElem.1 (mem_leaves.2 ha)
    rw [(u4 k _ (List.getElem?_eq_getElem hk)).1, h3, ← u3]
    exact hk
  have idsurj : ∀ k < t.nElements, ∃ a, IsNode P M a ∧ t.id a = k := by
    intro k hk
    have hk' : k < (leaves P M).length := by rw [u3, ← h3]; exact hk
    exact ⟨_, mem_leaves.1 (List.getElem_mem hk'), (u4 k _ (List.getElem?_eq_getElem hk')).1⟩
  have rowlt : ∀ a, IsNode P M a → ∀ r < pp, pp * t.id a + r < pp * t.nElements := by
    intro a ha r hr
    calc pp * t.id a + r < pp * t.id a + pp := by omega
      _ = pp * (t.id a + 1) := by ring
      _ ≤ pp * t.nElements := Nat.mul_le_mul_left _ (idlt a ha)
  have asm := fun junk junkE junkT M0 order => C63_assembly near corner P M hP t ht op hvd hnc T mom hmom B eta minLevel hm p trans htr surf
    pair v hv E n hn hx junk junkE junkT M0 order
  rw [← hppdef] at asm
  obtain ⟨H0, -, hH0t, hH0v, hH0T, hw0, hent0⟩ := asm (fun _ _ => 0) (fun _ _ => 0) (fun _ _ => 0)
    (fun _ _ _ => ⟨0, 0, fun _ _ => 0⟩) _ (List.Perm.refl _)
  subst hH0t
  obtain ⟨⟨A, hA⟩, -, -⟩ := C39_product near corner P M hP H0 ht B eta (n * n) op.nc hw0
  have ent := hent0 A hA
  clear hent0
  -- the leaf of an entry
  have leafOf : ∀ a b, IsNode P M a → IsNode P M b → ∀ r < pp, ∀ c < pp, ∃ leaf ∈ leafPointers (initBlockClusterTree H0.t B eta minLevel),
      Covers H0.t pp leaf (pp * H0.t.id a + r) (pp * H0.t.id b + c) := by
    intro a b ha hb r hr c hc
    obtain ⟨k, ⟨leaf, hk, hcov⟩, -⟩ := gcov _ (rowlt a ha r hr) _ (rowlt b hb c hc)
    exact ⟨leaf, List.mem_of_getElem? hk, hcov⟩
  refine ⟨A, ?_, ?_⟩
  · intro a b ha hb i hi' j hj r hr c hc entry
    obtain ⟨leaf, hleaf, hcov⟩ := leafOf a b ha hb r hr c hc
    have hE := ent a b ha hb i hi' j hj r hr c hc leaf hleaf hcov
    rcases dadm leaf hleaf with ⟨hcc, l, c1, c2, q1, q2, q3, q4, q5, q6, q7⟩ | ⟨hcc, -⟩
    · right
      obtain ⟨c1', c2', q1', q2', hval⟩ := hE.2 hcc
      obtain rfl : c1 = c1' := Option.some.inj (q1.symm.trans q1')
      obtain rfl : c2 = c2' := Option.some.inj (q2.symm.trans q2')
      have hl : l ≤ M := by omega
      have hL : IsCluster P M (some c1) := fun a h => ⟨l, hl, by cases h; exact mem_leaves.2 q3⟩
      have hL' : IsCluster P M (some c2) := fun a h => ⟨l, hl, by cases h; exact mem_leaves.2 q4⟩
      obtain ⟨a1, a2, -, -, -⟩ := cluster_iter hP h3 h4 h5 h6 h7 hL
      obtain ⟨b1, b2, -, -, -⟩ := cluster_iter hP h3 h4 h5 h6 h7 hL'
      obtain ⟨L1, l1, -, -, l4⟩ := elementsOf_eq hP h3 h4 h5 h6 h7 hL
      obtain ⟨L2, m1, -, -, m4⟩ := elementsOf_eq hP h3 h4 h5 h6 h7 hL'
      obtain ⟨r0, r1, c0, c1', w1, w2, w3, w4, z1, z2, z3, z4⟩ := hcov
      unfold rowStart at w1
      unfold rowEnd at w2
      unfold colStart at w3
      unfold colEnd at w4
      rw [q1, a1, Option.map_some, Option.some_inj] at w1
      rw [q1, a2, Option.map_some, Option.some_inj] at w2
      rw [q2, b1, Option.map_some, Option.some_inj] at w3
      rw [q2, b2, Option.map_some, Option.some_inj] at w4
      subst w1 w2 w3 w4
      have lowb : ∀ lo x rr : Nat, rr < pp → pp * lo ≤ pp * x + rr → lo ≤ x := by
        intro lo x rr hrr h
        by_contra hcon
        have : pp * (x + 1) ≤ pp * lo := Nat.mul_le_mul_left _ (by omega)
        rw [Nat.mul_succ] at this
        omega
      have uppb : ∀ hi x rr : Nat, pp * x + rr < pp * hi → x < hi := by
        intro hi x rr h
        by_contra hcon
        have : pp * hi ≤ pp * x := Nat.mul_le_mul_left _ (by omega)
        omega
      have hida : H0.t.id a = pathId a.1 a.2 := (h2 M le_rfl a (mem_leaves.2 ha)).1
      have hidb : H0.t.id b = pathId b.1 b.2 := (h2 M le_rfl b (mem_leaves.2 hb)).1
      have y1 := lowb _ _ _ hr z1
      have y2 := uppb _ _ _ z2
      have y3 := lowb _ _ _ hc z3
      have y4 := uppb _ _ _ z4
      rw [hida] at y1 y2
      rw [hidb] at y3 y4
      exact ⟨l, hl, c1, c2, q3, q4, ⟨L1, l1, List.mem_of_getElem? (l4 a (mem_leaves.2 ha) y1 y2)⟩,
        ⟨L2, m1, List.mem_of_getElem? (m4 b (mem_leaves.2 hb) y3 y4)⟩, q7, hval⟩
    · left
      exact hE.1 hcc
  · intro junk junkE junkT M0 order ho
    obtain ⟨H, e1, hHt, hHv, hHT, hw, hent⟩ := asm junk junkE junkT M0 order ho
    refine ⟨H, e1, ?_⟩
    have ht' : initElementTree near corner P M = some H.t := by rw [hHt]; exact ht
    obtain ⟨⟨A', hA'⟩, -, hrun⟩ := C39_product near corner P M hP H ht' B eta (n * n) op.nc hw
    have ent' := hent A' hA'
    have row : ∀ r < trans.rows, ∃ i < op.vd, ∃ a, IsNode P M a ∧ ∃ rr < pp, r = i * (pp * H0.t.nElements) + (pp * H0.t.id a + rr) := by
      intro r hr
      obtain ⟨i, hi', e, he, rr, hrr, q⟩ := row_split op.vd pp H0.t.nElements r (by rw [htr] at hr; rw [mul_assoc]; exact hr)
      obtain ⟨a, ha, rfl⟩ := idsurj e he
      exact ⟨i, hi', a, ha, rr, hrr, by rw [q]; ring⟩
    have agree : ∀ r < trans.rows, ∀ c < trans.rows, A' r c = A r c := by
      intro r hr c hc
      obtain ⟨i, hi', a, ha, rr, hrr, rfl⟩ := row r hr
      obtain ⟨j, hj, b, hb, cc, hcc, rfl⟩ := row c hc
      obtain ⟨leaf, hleaf, hcov⟩ := leafOf a b ha hb rr hrr cc hcc
      have hE := ent a b ha hb i hi' j hj rr hrr cc hcc leaf hleaf hcov
      have hE' := ent' a b ha hb i hi' j hj rr hrr cc hcc leaf hleaf hcov
      rcases dadm leaf hleaf with ⟨hk, -⟩ | ⟨hk, -⟩
      · obtain ⟨c1, c2, q1, q2, q3⟩ := hE.2 hk
        obtain ⟨c1', c2', q1', q2', q3'⟩ := hE'.2 hk
        obtain rfl : c1 = c1' := Option.some.inj (q1.symm.trans q1')
        obtain rfl : c2 = c2' := Option.some.inj (q2.symm.trans q2')
        exact q3'.trans q3.symm
      · exact (hE'.1 hk).trans (hE.1 hk).symm
    intro junk' S rhs res alpha k1 k2 k3
    have hr := hrun A' hA' junk' S rhs res alpha (by rw [hHT]; exact k1) (by rw [hHT]; exact k2) k3
    rw [hHT] at hr
    obtain ⟨res', r1, r2, r3, r4⟩ := hr
    refine ⟨res', r1, r2, r3, fun i hi' c hc => ?_⟩
    rw [r4 i hi' c hc]
    congr 2
    refine sum_congr rfl fun r hr => sum_congr rfl fun k hk => sum_congr rfl fun d _ => ?_
    rw [agree r (mem_range.1 hr) k (mem_range.1 hk)]

end

/-- Two patches of two separated balls, refined once: the assembly of the Laplace single layer operator with Chebyshev points succeeds
for every order of the tasks, and the tree has a compressed leaf. -/
theorem two_balls (n p : Nat) (hn : 0 < n) (surf : Addr → ℝ × ℝ → ℝ → SurfPt) (v : Addr → Addr → Nat → Nat → ℝ) (Q : Quad1 ℝ) :
    let B : Addr → Ball ℝ := fun a => ⟨100 * a.1, 1⟩
    ∃ t : Mesh.Tree ℝ, initElementTree (fun a b : Nat => a == b) (fun p i => 4 * p + i) 2 1 = some t ∧
    (∃ x ∈ leafPointers (initBlockClusterTree t B 2 1), x.cc = Adm.lowRank) ∧
    ∀ order, order.Perm (List.range (leafPointers (initBlockClusterTree t B 2 1)).length) →
    ∃ H, initH2Matrix (fun _ _ => 0) (fun _ _ => 0) (fun _ _ => 0) (fun _ _ _ => ⟨0, 0, fun _ _ => 0⟩) Operator.laplaceSL t B 2 1 p
      ⟨(p + 1) * (p + 1) * 8, 3, fun i j => if i = j then 1 else 0⟩ surf (fun a b => some (v a b))
      ⟨chebychevRoots, fun _ _ => 0, fun _ _ => 0, fun _ => 0, fun _ => Q⟩
      (fun E p cl r np => compute2DMoment E 1 p cl r np) n order = some H ∧ WellFormed H B 2 (n * n) 1 ∧ H.t = t ∧ H.trans.cols = 3 := by
  intro B
  obtain ⟨t, h1, h3⟩ := C20_uniform_mesh (K := ℝ) (fun a b : Nat => a == b) (fun p i => 4 * p + i) 2 1 (by omega)
  refine ⟨t, h1, ?_, ?_⟩
  · obtain ⟨t', g1, g2⟩ := C37_admissible (K := ℝ) (fun a b : Nat => a == b) (fun p i => 4 * p + i) 2 1 (by omega) B
      (fun _ _ _ _ => zero_le_one) 2 1 (by omega)
    obtain rfl : t = t' := Option.some.inj (h1.symm.trans g1)
    obtain ⟨t', k1, -, k2⟩ := C36_partition (K := ℝ) (fun a b : Nat => a == b) (fun p i => 4 * p + i) 2 1 1 (by omega) (by omega) B
      2 1 (by omega)
    obtain rfl : t = t' := Option.some.inj (h1.symm.trans k1)
    obtain ⟨t', u1, u2, u3, u4, u5, u6, u7⟩ := tree_facts (K := ℝ) (fun a b : Nat => a == b) (fun p i => 4 * p + i) 2 1 (by omega)
    obtain rfl : t = t' := Option.some.inj (h1.symm.trans u1)
    have hN : t.nElements = 8 := by rw [u3]; norm_num
    obtain ⟨k, ⟨x, hx, hcov⟩, -⟩ := k2 0 (by omega) 7 (by omega)
    refine ⟨x, List.mem_of_getElem? hx, ?_⟩
    obtain ⟨f1, -⟩ := block_facts (by omega) u2 u3 u4 u5 u6 u7 B 2 1 (by omega)
    rcases g2 x (List.mem_of_getElem? hx) with ⟨h, -⟩ | ⟨-, ⟨l, a, b, e1, e2, na, nb, hl, hs⟩ | ⟨-, -, h⟩⟩
    · exact h
    · exfalso
      obtain rfl : l = 0 := by omega
      obtain ⟨a1, a2⟩ := a
      obtain ⟨b1, b2⟩ := b
      obtain rfl : a2 = [] := List.length_eq_zero_iff.1 na.2.1
      obtain rfl : b2 = [] := List.length_eq_zero_iff.1 nb.2.1
      obtain ⟨q1, -, -, -, -⟩ := cluster_iter (by omega) u3 u4 u5 u6 u7 (f1 x (List.mem_of_getElem? hx)).c1
      obtain ⟨-, q2, -, -, -⟩ := cluster_iter (by omega) u3 u4 u5 u6 u7 (f1 x (List.mem_of_getElem? hx)).c2
      obtain ⟨r0, r1, c0, c1, z1, -, -, z2, z3, -, -, z4⟩ := hcov
      unfold rowStart at z1
      unfold colEnd at z2
      rw [q1, e1] at z1
      rw [q2, e2] at z2
      simp [lo, hi, pathId] at z1 z2
      have ha : a1 = 0 := by omega
      have hb : b1 = 1 := by have := nb.1; simp at this; omega
      subst ha hb
      simp [B] at hs
      norm_num at hs
    · omega
  · intro order ho
    obtain ⟨H, e1, e3, -, e4, e2, -⟩ := C63_assembly (R := ℝ) (fun a b : Nat => a == b) (fun p i => 4 * p + i) 2 1 (by omega) t h1
      Operator.laplaceSL (by decide) (by decide) valueT _ (C42_operators.1 1) B 2 1 (by omega) p
      ⟨(p + 1) * (p + 1) * 8, 3, fun i j => if i = j then 1 else 0⟩ (by rw [h3.1]; simp [Operator.laplaceSL]) surf
      (fun a b => some (v a b)) v (fun _ _ _ _ => rfl)
      ⟨chebychevRoots, fun _ _ => 0, fun _ _ => 0, fun _ => 0, fun _ => Q⟩ n hn (C40_chebyshev n).2.2 _ _ _ _ order ho
    exact ⟨H, e1, e2, e3, by rw [e4]⟩

end Bembel.Props
