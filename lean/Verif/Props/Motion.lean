import Verif.Lemmas.MotionMesh
import Verif.Props.H2Init
import Verif.Props.Degrees
import Verif.Props.Dense
import Verif.Props.MeshSurface
/-! # C84: results do not depend on the position of the surface in space -/

namespace Bembel.Props
open Mesh Util Duffy BlockCluster Spec SuperSpace

namespace MotionInv

theorem foldlM_congr {σ ι : Type} (L : List ι) (f g : σ → ι → Option σ) (h : ∀ s, ∀ x ∈ L, f s x = g s x) (s : σ) :
    L.foldlM f s = L.foldlM g s := by
  induction L generalizing s with
  | nil => rfl
  | cons a L ih =>
    rw [List.foldlM_cons, List.foldlM_cons, h s a (by simp)]
    congr 1
    funext s'
    exact ih (fun s x hx => h s x (by simp [hx])) s'

theorem run_congr {R : Type} [CommRing R] (jM : Nat → Nat → R) (t : Mesh.Tree ℝ) (pp : Nat) (pair pair' : Addr → Addr → Option (Nat → Nat → R))
    (op : Operator R) (surf surf' : Addr → ℝ × ℝ → ℝ → SurfPt) (np2 : Nat) (x : Nat → ℝ × ℝ) (ls : List BTree) (order : List Nat)
    (mem : H2.LeafMem R) (h : ∀ leaf ∈ ls, H2.leafTask jM t pp pair' op surf' np2 x leaf = H2.leafTask jM t pp pair op surf np2 x leaf) :
    order.foldlM (H2.runTask jM t pp pair' op surf' np2 x ls) mem = order.foldlM (H2.runTask jM t pp pair op surf np2 x ls) mem := by
  refine foldlM_congr _ _ _ (fun mem k _ => ?_) mem
  unfold H2.runTask
  cases hk : ls[k]? with
  | none => rfl
  | some leaf =>
    simp only [Option.bind_eq_bind, Option.bind_some]
    rw [h leaf (List.mem_of_getElem? hk)]

end MotionInv

open MotionInv

/-- The comparison of corners in the construction of the mesh, ElementTree.hpp l.140-154. -/
noncomputable def nearBy (tol : ℝ) (u v : V3) : Bool := open scoped Classical in decide (‖u - v‖ < tol)

section
variable {R : Type} [CommRing R] [Algebra ℝ R] (m : Motion) (tol : ℝ) (geo : Nat → ℝ × ℝ → V3 × V3 × V3) (P M : Nat)

/-- C84: the mesh of a moved geometry is the mesh of the geometry. -/
theorem C84_mesh : (initElementTree (nearBy tol) (fun q j => (m.geometry geo q (cornerPoint j)).1) P M : Option (Mesh.Tree ℝ)) =
    initElementTree (nearBy tol) (fun q j => (geo q (cornerPoint j)).1) P M :=
  m.initElementTree_pos (nearBy tol) (fun x y => by simp only [nearBy, m.pos_sub, m.norm_rot]) _ P M

variable (hP : 0 < P) (t : Mesh.Tree ℝ) (ht : initElementTree (nearBy tol) (fun q j => (geo q (cornerPoint j)).1) P M = some t)
  (junk junk' : Nat → V3) (B0 B0' B : Addr → Ball V3) (hB : computeElementEnclosings t (fun q x => (geo q x).1) junk B0 = some B)
include hP ht hB

/-- C84: the bounding balls of the clusters of a moved geometry are the moved balls. -/
theorem C84_balls : ∃ B', computeElementEnclosings t (fun q x => (m.geometry geo q x).1) junk' B0' = some B' ∧
    ∀ l ≤ M, ∀ a, IsNode P l a → (B' a).mid = m.pos (B a).mid ∧ (B' a).rad = (B a).rad := by
  obtain ⟨B', e, h⟩ := m.enclosings_moved (nearBy tol) _ P M hP t ht (fun q x => (geo q x).1) junk junk' B0 B0' B hB
  exact ⟨B', e, fun l hl a ha => by rw [h l hl a ha]; exact ⟨rfl, rfl⟩⟩

variable (B' : Addr → Ball V3) (hB' : computeElementEnclosings t (fun q x => (m.geometry geo q x).1) junk' B0' = some B')
  (op : Operator R) (hop : m.Invariant op) (jr : Nat → ℝ) (jk : Nat → R) (p : Nat) (GS : Nat → Cubature ℝ) (ffq ffq' : Addr → Nat → SurfPt)
  (hff : ∀ a, IsNode P M a → ∀ k < (GS (farfieldDegree op.order p).toNat).size, ffq a k =
    map2surface t geo a ((GS (farfieldDegree op.order p).toNat).xi k) (1 / 2 ^ M * (GS (farfieldDegree op.order p).toNat).w k))
  (hff' : ∀ a, IsNode P M a → ∀ k < (GS (farfieldDegree op.order p).toNat).size, ffq' a k =
    map2surface t (m.geometry geo) a ((GS (farfieldDegree op.order p).toNat).xi k) (1 / 2 ^ M * (GS (farfieldDegree op.order p).toNat).w k))
include hB' hop hff hff'

/-- C84: the matrix of every pair of elements is the same. -/
theorem C84_pair (a b : Addr) (ha : IsNode P M a) (hb : IsNode P M b) :
    evaluateBilinearForm op.order p t B' (op.integrand jr jk p M) (map2surface t (m.geometry geo)) GS ffq' a b =
      evaluateBilinearForm op.order p t B (op.integrand jr jk p M) (map2surface t geo) GS ffq a b := by
  obtain ⟨B2, e, h⟩ := m.enclosings_moved (nearBy tol) _ P M hP t ht (fun q x => (geo q x).1) junk junk' B0 B0' B hB
  obtain rfl : B2 = B' := Option.some.inj (e.symm.trans hB')
  exact m.pair_moved _ (fun x y v => hop.1 jr jk p M x y v) op.order p t B B2 (map2surface t geo)
    (map2surface t (m.geometry geo)) (fun _ _ _ => rfl) GS ffq ffq' a b
    (m.compareElements_moved h t a b ha hb) (fun k hk => by rw [hff a ha k hk, hff' a ha k hk]; rfl)
    (fun k hk => by rw [hff b hb k hk, hff' b hb k hk]; rfl)

/-- C84: the tasks of the dense assembly are the same, with the same values to be written (the matrix is determined by them for every
schedule, C48). -/
theorem C84_dense : Dense.tasks t op.vd ((p + 1) * (p + 1))
      (evaluateBilinearForm op.order p t B' (op.integrand jr jk p M) (map2surface t (m.geometry geo)) GS ffq') =
    Dense.tasks t op.vd ((p + 1) * (p + 1))
      (evaluateBilinearForm op.order p t B (op.integrand jr jk p M) (map2surface t geo) GS ffq) := by
  obtain ⟨t', h1, h2, h3, h4, h5, h6, h7⟩ := tree_facts (K := ℝ) (nearBy tol) (fun q j => (geo q (cornerPoint j)).1) P M hP
  obtain rfl : t = t' := Option.some.inj (ht.symm.trans h1)
  unfold Dense.tasks
  rw [elements_eq t P M hP h3 h6]
  simp only [Option.bind_eq_bind, Option.bind_some]
  refine mapM_congr_mem _ _ _ fun x hx => ?_
  simp only [List.mem_flatMap, List.mem_map] at hx
  obtain ⟨a, ha, b, hb, rfl⟩ := hx
  rw [C84_pair m tol geo P M hP t ht junk junk' B0 B0' B hB B' hB' op hop jr jk p GS ffq ffq' hff hff' a b (mem_leaves.1 ha) (mem_leaves.1 hb)]

/-- C84: the H2-matrix is the same: same block cluster tree, same near field, same coupling matrices. -/
theorem C84_h2 (jM : Nat → Nat → R) (jE jT : Nat → Nat → ℝ) (M0 : H2.LeafMem R) (eta : ℝ) (minLevel : Int) (hm : 0 ≤ minLevel) (trans : EMat R)
    (E : H2.MomentEnv) (mom : H2.MomentEnv → (p cl r np : Nat) → List (EMat ℝ)) (n : Nat) (order : List Nat) :
    H2.initH2Matrix jM jE jT M0 op t B' eta minLevel p trans (map2surface t (m.geometry geo))
        (evaluateBilinearForm op.order p t B' (op.integrand jr jk p M) (map2surface t (m.geometry geo)) GS ffq') E mom n order =
      H2.initH2Matrix jM jE jT M0 op t B eta minLevel p trans (map2surface t geo)
        (evaluateBilinearForm op.order p t B (op.integrand jr jk p M) (map2surface t geo) GS ffq) E mom n order := by
  have hpair := C84_pair m tol geo P M hP t ht junk junk' B0 B0' B hB B' hB' op hop jr jk p GS ffq ffq' hff hff'
  obtain ⟨B2, e, h⟩ := m.enclosings_moved (nearBy tol) _ P M hP t ht (fun q x => (geo q x).1) junk junk' B0 B0' B hB
  obtain rfl : B2 = B' := Option.some.inj (e.symm.trans hB')
  obtain ⟨t', h1, h2, h3, h4, h5, h6, h7⟩ := tree_facts (K := ℝ) (nearBy tol) (fun q j => (geo q (cornerPoint j)).1) P M hP
  obtain rfl : t = t' := Option.some.inj (ht.symm.trans h1)
  have hbt : initBlockClusterTree t B2 eta minLevel = initBlockClusterTree t B eta minLevel :=
    m.appendSubtree_moved h t h5 h7 eta minLevel _ none none _ _ (by simp) (by simp)
  obtain ⟨f1, -⟩ := block_facts hP h2 h3 h4 h5 h6 h7 B eta minLevel hm
  have hleaf : ∀ np2 x, ∀ leaf ∈ leafPointers (initBlockClusterTree t B eta minLevel),
      H2.leafTask jM t ((p + 1) * (p + 1))
        (evaluateBilinearForm op.order p t B2 (op.integrand jr jk p M) (map2surface t (m.geometry geo)) GS ffq') op
        (map2surface t (m.geometry geo)) np2 x leaf =
      H2.leafTask jM t ((p + 1) * (p + 1))
        (evaluateBilinearForm op.order p t B (op.integrand jr jk p M) (map2surface t geo) GS ffq) op (map2surface t geo) np2 x leaf := by
    intro np2 x leaf hl
    have hL := f1 _ hl
    unfold H2.leafTask
    cases leaf.cc with
    | refine => rfl
    | dense =>
      obtain ⟨L1, e1, n1, m1, g1⟩ := H2.elementsOf_eq hP h3 h4 h5 h6 h7 hL.c1
      obtain ⟨L2, e2, n2, m2, g2⟩ := H2.elementsOf_eq hP h3 h4 h5 h6 h7 hL.c2
      have q1 : ∀ a ∈ L1, IsNode P M a := fun a ha => by
        obtain ⟨k, hk⟩ := List.mem_iff_getElem?.1 ha
        exact mem_leaves.1 (m1 k a hk).1
      have q2 : ∀ a ∈ L2, IsNode P M a := fun a ha => by
        obtain ⟨k, hk⟩ := List.mem_iff_getElem?.1 ha
        exact mem_leaves.1 (m2 k a hk).1
      have : ∀ F, L1.zipIdx.foldlM (fun F e1 => L2.zipIdx.foldlM (fun F e2 => H2.densePair op.vd ((p + 1) * (p + 1))
          (evaluateBilinearForm op.order p t B2 (op.integrand jr jk p M) (map2surface t (m.geometry geo)) GS ffq') F e1.1 e1.2 e2.1 e2.2) F) F =
          L1.zipIdx.foldlM (fun F e1 => L2.zipIdx.foldlM (fun F e2 => H2.densePair op.vd ((p + 1) * (p + 1))
          (evaluateBilinearForm op.order p t B (op.integrand jr jk p M) (map2surface t geo) GS ffq) F e1.1 e1.2 e2.1 e2.2) F) F := by
        intro F
        refine MotionInv.foldlM_congr _ _ _ (fun F x hx => MotionInv.foldlM_congr _ _ _ (fun F y hy => ?_) F) F
        unfold H2.densePair
        rw [hpair x.1 y.1 (q1 _ (List.fst_mem_of_mem_zipIdx hx)) (q2 _ (List.fst_mem_of_mem_zipIdx hy))]
      simp only [H2.denseLeaf, e1, e2, Option.bind_eq_bind, Option.bind_some, this]
    | lowRank =>
      unfold H2.lowRankLeaf
      cases leaf.cluster1 with
      | none => rfl
      | some c1 =>
      cases leaf.cluster2 with
      | none => rfl
      | some c2 =>
        have : H2.interpolateKernel jM op (map2surface t (m.geometry geo)) np2 x c1 c2 =
            H2.interpolateKernel jM op (map2surface t geo) np2 x c1 c2 := by
          unfold H2.interpolateKernel
          simp only [m.map2surface_moved, hop.2]
        simp only [this]
  unfold H2.initH2Matrix
  rw [hbt]
  have hrun := fun np2 x mem => MotionInv.run_congr jM t ((p + 1) * (p + 1)) _ _ op _ _ np2 x
    (leafPointers (initBlockClusterTree t B eta minLevel)) order mem (hleaf np2 x)
  simp only [hrun]

end

/-! ## Limits and a concrete motion -/

/-- C84: scalings are different.  The number of quadrature points of a pair of elements is computed from the absolute distance: for the single
layer operator, ansatz degree 2, level 4, elements at distance 1/16 are integrated with degree 8, at distance 1 (the same configuration
after a scaling by 16) with degree 4. -/
theorem C84_not_scaling : pairDegree (-1) 2 (1 / 16) 4 = 8 ∧ pairDegree (-1) 2 (16 * (1 / 16)) 4 = 4 := by
  have h2 : 0 < Real.log 2 := Real.log_pos (by norm_num)
  have hl : Real.log (1 / 16) = -(4 * Real.log 2) := by
    rw [show (1 / 16 : ℝ) = (2 ^ 4)⁻¹ by norm_num, Real.log_inv, Real.log_pow]
    norm_num
  constructor
  · have : nearfieldDegree (-1) 2 (1 / 16) 4 = 8 := by
      unfold nearfieldDegree
      rw [if_neg (by norm_num), hl]
      simp only []
      rw [show (0.5 * (((2 - -1 + 2 * (2 : ℕ) + (2 : ℕ) : Int) : ℝ) * (4 : ℕ) * Real.log 2 - ((2 - (2 : ℕ) + -1 : Int) : ℝ) * -(4 * Real.log 2)) /
          ((((4 : ℕ) : ℝ) + 2) * Real.log 2 + -(4 * Real.log 2))) = ((8 : Int) : ℝ) by
        push_cast
        field_simp
        norm_num]
      unfold truncInt
      rw [if_pos (by norm_num), Int.floor_intCast]
    unfold pairDegree
    simp only [this]
    norm_num [farfieldDegree]
  · have : nearfieldDegree (-1) 2 (16 * (1 / 16)) 4 = 3 := by
      unfold nearfieldDegree
      rw [if_neg (by norm_num), show (16 * (1 / 16) : ℝ) = 1 by norm_num, Real.log_one]
      simp only []
      rw [show (0.5 * (((2 - -1 + 2 * (2 : ℕ) + (2 : ℕ) : Int) : ℝ) * (4 : ℕ) * Real.log 2 - ((2 - (2 : ℕ) + -1 : Int) : ℝ) * 0) /
          ((((4 : ℕ) : ℝ) + 2) * Real.log 2 + 0)) = ((3 : Int) : ℝ) by
        push_cast
        field_simp
        norm_num
        ring]
      unfold truncInt
      rw [if_pos (by norm_num), Int.floor_intCast]
    unfold pairDegree
    simp only [this]
    norm_num [farfieldDegree]

/-- Quarter turn about the third axis followed by a translation. -/
noncomputable def quarterTurn : Motion where
  Q := !![0, -1, 0; 1, 0, 0; 0, 0, 1]
  b := WithLp.toLp 2 ![1, 2, 3]
  orth := by
    ext i j
    fin_cases i <;> fin_cases j <;> simp [Matrix.mul_apply, Fin.sum_univ_three]
  det := by simp [Matrix.det_fin_three]

/-- It is not the identity. -/
example : quarterTurn.pos (WithLp.toLp 2 ![1, 0, 0]) = WithLp.toLp 2 ![1, 3, 3] := by
  ext k
  fin_cases k <;> simp [quarterTurn, Motion.pos, Motion.rot, Fin.sum_univ_three] <;> norm_num

/-- A flat square patch. -/
noncomputable def flatSquare (_ : Nat) (x : ℝ × ℝ) : V3 × V3 × V3 :=
  (WithLp.toLp 2 ![x.1, x.2, 0], WithLp.toLp 2 ![1, 0, 0], WithLp.toLp 2 ![0, 1, 0])

theorem flatSquare_near (i j : Nat) (hi : i < 4) (hj : j < 4)
    (h : ‖(flatSquare 0 (cornerPoint i)).1 - (flatSquare 0 (cornerPoint j)).1‖ < 1 / 1000) : i = j := by
  have h0 := (PiLp.norm_apply_le ((flatSquare 0 (cornerPoint i)).1 - (flatSquare 0 (cornerPoint j)).1) 0).trans_lt h
  have h1 := (PiLp.norm_apply_le ((flatSquare 0 (cornerPoint i)).1 - (flatSquare 0 (cornerPoint j)).1) 1).trans_lt h
  interval_cases i <;> interval_cases j <;> first
    | rfl
    | (exfalso; norm_num [cornerPoint, edgePoint, flatSquare] at h0; done)
    | (exfalso; norm_num [cornerPoint, edgePoint, flatSquare] at h1; done)

theorem flatSquare_inj (i j : Nat) (hi : i < 4) (hj : j < 4) (h : (flatSquare 0 (cornerPoint i)).1 = (flatSquare 0 (cornerPoint j)).1) :
    i = j := flatSquare_near i j hi hj (by rw [h]; norm_num)

theorem flatSquare_conforming : ConformingPatches (nearBy (1 / 1000)) (fun q j => (flatSquare q (cornerPoint j)).1) 1 where
  separated := by
    intro p _ q _ i hi j hj
    simp only [nearBy, decide_eq_true_eq]
    constructor
    · intro h
      rw [flatSquare_near i j hi hj h]
      rfl
    · intro h
      rw [h]
      norm_num
  distinct := fun p _ i hi j hj h => flatSquare_inj i j hi hj h
  twoSides := by
    intro p hp q hq r hr i hi j hj k hk h1 h2
    obtain rfl : p = 0 := by omega
    obtain rfl : q = 0 := by omega
    left
    rcases Sym2.eq_iff.1 h1 with h | h
    · rw [flatSquare_inj i j hi hj h.1]
    · have a := flatSquare_inj _ _ hi (Nat.mod_lt _ (by norm_num)) h.1
      have b := flatSquare_inj _ _ (Nat.mod_lt _ (by norm_num)) hj h.2
      omega
  oneEdge := fun p hp q hq hpq => by omega

/-- The hypotheses are met: the mesh of a turned square is the mesh of the square and the balls exist and are moved; the matrices of the
single layer operator of all pairs of elements are the same. -/
example : ∃ (t : Mesh.Tree ℝ) (B B' : Addr → Ball V3),
    initElementTree (nearBy (1 / 1000)) (fun q j => (flatSquare q (cornerPoint j)).1) 1 2 = some t ∧
    initElementTree (nearBy (1 / 1000)) (fun q j => (quarterTurn.geometry flatSquare q (cornerPoint j)).1) 1 2 = some t ∧
    computeElementEnclosings t (fun q x => (flatSquare q x).1) (fun _ => 0) (fun _ => ⟨0, 0⟩) = some B ∧
    computeElementEnclosings t (fun q x => (quarterTurn.geometry flatSquare q x).1) (fun _ => 0) (fun _ => ⟨0, 0⟩) = some B' ∧
    (∀ l ≤ 2, ∀ a, IsNode 1 l a → (B' a).mid = quarterTurn.pos (B a).mid ∧ (B' a).rad = (B a).rad) ∧
    ∀ (GS : Nat → Cubature ℝ) (a b : Addr), IsNode 1 2 a → IsNode 1 2 b →
      let op := (Operator.laplaceSL : Operator ℝ)
      let Q := GS (farfieldDegree op.order 2).toNat
      evaluateBilinearForm op.order 2 t B' (op.integrand (fun _ => 0) (fun _ => 0) 2 2) (map2surface t (quarterTurn.geometry flatSquare)) GS
          (fun a k => map2surface t (quarterTurn.geometry flatSquare) a (Q.xi k) (1 / 2 ^ 2 * Q.w k)) a b =
        evaluateBilinearForm op.order 2 t B (op.integrand (fun _ => 0) (fun _ => 0) 2 2) (map2surface t flatSquare) GS
          (fun a k => map2surface t flatSquare a (Q.xi k) (1 / 2 ^ 2 * Q.w k)) a b := by
  obtain ⟨t, h1, B, hB, -⟩ := C24_balls (nearBy (1 / 1000)) (fun q j => (flatSquare q (cornerPoint j)).1) 1 2 (by norm_num) flatSquare_conforming
    (fun q x => (flatSquare q x).1) ⟨fun _ _ _ _ => rfl, fun p hp q hq hpq => by omega, fun p hp q hq hpq => by omega⟩ (fun _ => 0) (fun _ => ⟨0, 0⟩)
  obtain ⟨B', e, h⟩ := C84_balls quarterTurn (1 / 1000) flatSquare 1 2 (by norm_num) t h1 (fun _ => 0) (fun _ => 0) (fun _ => ⟨0, 0⟩)
    (fun _ => ⟨0, 0⟩) B hB
  refine ⟨t, B, B', h1, (C84_mesh quarterTurn (1 / 1000) flatSquare 1 2).trans h1, hB, e, h, fun GS a b ha hb => ?_⟩
  exact C84_pair quarterTurn (1 / 1000) flatSquare 1 2 (by norm_num) t h1 _ _ _ _ B hB B' e Operator.laplaceSL quarterTurn.laplaceSL _ _ 2 GS _ _
    (fun _ _ _ _ => rfl) (fun _ _ _ _ => rfl) a b ha hb

end Bembel.Props
