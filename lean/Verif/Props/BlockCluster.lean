import Verif.Lemmas.BlockCluster
import Verif.Spec.BlockCluster
import Verif.Props.MeshSurface
import Mathlib.Analysis.InnerProductSpace.PiL2
/-!
# Property theorems C36, C37: the block cluster tree
-/

set_option linter.unusedSectionVars false

namespace Bembel.Props

open Bembel.Mesh Bembel.Util Bembel.BlockCluster

section
variable {K : Type} [Field K] [CharZero K] {V : Type} (near : V → V → Bool) (corner : Nat → Nat → V)
  {E : Type} [NormedAddCommGroup E]

/-- What is known about a leaf. -/
structure LeafOK (P M : Nat) (t : Mesh.Tree K) (B : Addr → Ball E) (eta : ℝ) (m : Int) (x : BTree) : Prop where
  c1 : IsCluster P M x.cluster1
  c2 : IsCluster P M x.cluster2
  rows : x.rows = some (hi P M x.cluster1 - lo M x.cluster1)
  cols : x.cols = some (hi P M x.cluster2 - lo M x.cluster2)
  cc : x.cc = compareCluster t B eta m x.cluster1 x.cluster2
  leaf : x.cc ≠ Adm.refine
  pos : (x.cluster1 = none ∧ x.cluster2 = none) ∨ ∃ l a b, x.cluster1 = some a ∧ x.cluster2 = some b ∧
    a ∈ leaves P l ∧ b ∈ leaves P l ∧ l ≤ M ∧ m ≤ (M : Int) - l

/-- cell `(r, c)` of the element pair matrix belongs to the leaf -/
def inB (P M r c : Nat) (x : BTree) : Bool :=
  decide (lo M x.cluster1 ≤ r ∧ r < hi P M x.cluster1) && decide (lo M x.cluster2 ≤ c ∧ c < hi P M x.cluster2)

theorem countP_single (P M r c : Nat) (x : BTree) :
    [x].countP (inB P M r c) = ind P M x.cluster1 r * ind P M x.cluster2 c := by
  unfold ind
  rw [List.countP_singleton]
  unfold inB
  split_ifs with h1 h2 h3 <;> simp_all

theorem leaves_sum (P M r c : Nat) (s1 s2 : List Addr) (f : Addr → Addr → List BTree)
    (h : ∀ a ∈ s1, ∀ b ∈ s2, (f a b).countP (inB P M r c) = ind P M (some a) r * ind P M (some b) c) :
    (s2.flatMap fun b => s1.flatMap fun a => f a b).countP (inB P M r c) =
      (s1.map fun a => ind P M (some a) r).sum * (s2.map fun b => ind P M (some b) c).sum := by
  rw [countP_flatMap']
  have inner : ∀ b ∈ s2, (s1.flatMap fun a => f a b).countP (inB P M r c) =
      (s1.map fun a => ind P M (some a) r).sum * ind P M (some b) c := by
    intro b hb
    rw [countP_flatMap', ← sum_map_mul, List.map_map]
    congr 1
    apply List.map_congr_left
    intro a ha
    exact h a ha b hb
  rw [Nat.mul_comm, ← sum_map_mul, List.map_map]
  congr 1
  apply List.map_congr_left
  intro b hb
  rw [inner b hb, Nat.mul_comm]
  rfl

theorem leafPointers_refine (t : Mesh.Tree K) (B : Addr → Ball E) (eta : ℝ) (m : Int) (fuel : Nat) (c1 c2 : Cluster)
    (rows cols : Option Nat) (h : compareCluster t B eta m c1 c2 = Adm.refine) :
    leafPointers (appendSubtree t B eta m (fuel + 1) c1 c2 rows cols) =
      (clusterSons t c2).flatMap fun b => (clusterSons t c1).flatMap fun a =>
        leafPointers (appendSubtree t B eta m fuel (some a) (some b)
          (distance t (clusterBegin t (some a)) (clusterEnd t (some a)))
          (distance t (clusterBegin t (some b)) (clusterEnd t (some b)))) := by
  rw [appendSubtree]
  simp only [h, if_true]
  rw [leafPointers]
  simp only [if_true]
  rw [← flatMap_range_getElem? (clusterSons t c2) _ []]
  rw [List.flatMap_def, List.flatMap_def]
  congr 1
  apply List.map_congr_left
  intro j hj
  have hj := List.mem_range.1 hj
  rw [List.getElem?_eq_getElem hj]
  simp only
  rw [← flatMap_range_getElem? (clusterSons t c1) _ []]
  rw [List.flatMap_def, List.flatMap_def]
  congr 1
  apply List.map_congr_left
  intro i hi
  have hi := List.mem_range.1 hi
  rw [List.getElem?_eq_getElem hi]

theorem leafPointers_leaf (t : Mesh.Tree K) (B : Addr → Ball E) (eta : ℝ) (m : Int) (fuel : Nat) (c1 c2 : Cluster)
    (rows cols : Option Nat) (h : compareCluster t B eta m c1 c2 ≠ Adm.refine) :
    ∃ f, leafPointers (appendSubtree t B eta m (fuel + 1) c1 c2 rows cols) =
      [.node c1 c2 rows cols (compareCluster t B eta m c1 c2) 0 0 f] := by
  rw [appendSubtree]
  simp only [h, if_false]
  rw [leafPointers]
  simp only [h, if_false]
  exact ⟨_, rfl⟩

open scoped Classical in
theorem compare_some (t : Mesh.Tree K) (B : Addr → Ball E) (eta : ℝ) (m : Int) (a b : Addr) :
    compareCluster t B eta m (some a) (some b) =
      if max (B a).rad (B b).rad < eta * max (‖(B a).mid - (B b).mid‖ - (B a).rad - (B b).rad) 0 then Adm.lowRank
      else if (t.maxLevel : Int) - (t.level a : Int) ≤ m then Adm.dense else Adm.refine := by
  have e1 : (if (B a).rad > (B b).rad then (B a).rad else (B b).rad) = max (B a).rad (B b).rad := by
    split
    · rename_i h; exact (max_eq_left h.le).symm
    · rename_i h; exact (max_eq_right (not_lt.1 h)).symm
  have e2 : (if ‖(B a).mid - (B b).mid‖ - (B a).rad - (B b).rad > 0 then ‖(B a).mid - (B b).mid‖ - (B a).rad - (B b).rad
      else 0) = max (‖(B a).mid - (B b).mid‖ - (B a).rad - (B b).rad) 0 := by
    split
    · rename_i h; exact (max_eq_left h.le).symm
    · rename_i h; exact (max_eq_right (not_lt.1 h)).symm
  have e3 : ¬ (max (‖(B a).mid - (B b).mid‖ - (B a).rad - (B b).rad) 0 < 0) := not_lt.2 (le_max_right _ _)
  unfold compareCluster
  simp only [clusterLevel, e1, e2, e3, false_or, ge_iff_le]
  by_cases h : max (B a).rad (B b).rad < eta * max (‖(B a).mid - (B b).mid‖ - (B a).rad - (B b).rad) 0
  · rw [if_pos h, if_neg (not_le.2 h), if_neg (by simp)]
  · rw [if_neg h, if_pos (not_lt.1 h)]
    simp only [true_and]

theorem compare_root (t : Mesh.Tree K) (B : Addr → Ball E) (eta : ℝ) (m : Int) :
    compareCluster t B eta m none none = if (t.maxLevel : Int) + 1 ≤ m then Adm.dense else Adm.refine := by
  unfold compareCluster
  simp only [clusterLevel, true_and, sub_neg_eq_add]

theorem refine_some (t : Mesh.Tree K) (B : Addr → Ball E) (eta : ℝ) (m : Int) (a b : Addr)
    (h : compareCluster t B eta m (some a) (some b) = Adm.refine) : m < (t.maxLevel : Int) - (t.level a : Int) := by
  rw [compare_some] at h
  split at h
  · cases h
  · split at h
    · cases h
    · rename_i h'; exact not_le.1 h'

variable {P M : Nat} (hP : 0 < P) {t : Mesh.Tree K} (h2 : ∀ j ≤ M, ∀ a ∈ leaves P j, GoodNode t a)
  (h3 : t.nElements = P * 4 ^ M) (h4 : t.maxLevel = M) (h5 : t.nPatches = P) (h6 : Chain t.links (leaves P M))
  (h7 : ∀ b, t.refined b = true ↔ ∃ j < M, b ∈ leaves P j)
include hP h2 h3 h4 h5 h6 h7

theorem subtree_facts (B : Addr → Ball E) (eta : ℝ) (m : Int) (hm : 0 ≤ m) (d : Nat) : ∀ (l : Nat) (a b : Addr) (fuel : Nat),
    a ∈ leaves P l → b ∈ leaves P l → l + d = M → d < fuel → m ≤ d →
    let L := leafPointers (appendSubtree t B eta m fuel (some a) (some b)
      (distance t (clusterBegin t (some a)) (clusterEnd t (some a)))
      (distance t (clusterBegin t (some b)) (clusterEnd t (some b))))
    (∀ x ∈ L, LeafOK P M t B eta m x) ∧
      ∀ r c, L.countP (inB P M r c) = ind P M (some a) r * ind P M (some b) c := by
  induction d with
  | zero =>
    intro l a b fuel ha hb hl hf hmd
    obtain ⟨f, rfl⟩ : ∃ f, fuel = f + 1 := ⟨fuel - 1, by omega⟩
    have hca : IsCluster P M (some a) := fun a' h => ⟨l, by omega, by cases h; exact ha⟩
    have hcb : IsCluster P M (some b) := fun a' h => ⟨l, by omega, by cases h; exact hb⟩
    obtain ⟨-, -, da, -, -⟩ := cluster_iter hP h3 h4 h5 h6 h7 hca
    obtain ⟨-, -, db, -, -⟩ := cluster_iter hP h3 h4 h5 h6 h7 hcb
    have hlev : t.level a = l := by
      have := (h2 l (by omega) a ha).2.1
      rwa [(mem_leaves.1 ha).2.1] at this
    have hne : compareCluster t B eta m (some a) (some b) ≠ Adm.refine := by
      intro h
      have := refine_some t B eta m _ _ h
      rw [hlev, h4] at this
      omega
    obtain ⟨g, hg⟩ := leafPointers_leaf t B eta m f (some a) (some b)
      (distance t (clusterBegin t (some a)) (clusterEnd t (some a)))
      (distance t (clusterBegin t (some b)) (clusterEnd t (some b))) hne
    rw [hg]
    refine ⟨?_, fun r c => countP_single P M r c _⟩
    intro x hx
    rw [List.mem_singleton] at hx
    subst hx
    exact ⟨hca, hcb, da, db, rfl, hne, Or.inr ⟨l, a, b, rfl, rfl, ha, hb, by omega, by omega⟩⟩
  | succ d ih =>
    intro l a b fuel ha hb hl hf hmd
    obtain ⟨f, rfl⟩ : ∃ f, fuel = f + 1 := ⟨fuel - 1, by omega⟩
    have hca : IsCluster P M (some a) := fun a' h => ⟨l, by omega, by cases h; exact ha⟩
    have hcb : IsCluster P M (some b) := fun a' h => ⟨l, by omega, by cases h; exact hb⟩
    obtain ⟨-, -, da, -, -⟩ := cluster_iter hP h3 h4 h5 h6 h7 hca
    obtain ⟨-, -, db, -, -⟩ := cluster_iter hP h3 h4 h5 h6 h7 hcb
    have hlev : t.level a = l := by
      have := (h2 l (by omega) a ha).2.1
      rwa [(mem_leaves.1 ha).2.1] at this
    by_cases hr : compareCluster t B eta m (some a) (some b) = Adm.refine
    · have hlt := refine_some t B eta m _ _ hr
      rw [hlev, h4] at hlt
      rw [leafPointers_refine t B eta m f _ _ _ _ hr]
      have sa : clusterSons t (some a) = Mesh.sons a := by
        simp only [clusterSons]
        rw [if_pos ((h7 a).2 ⟨l, by omega, ha⟩)]
      have sb : clusterSons t (some b) = Mesh.sons b := by
        simp only [clusterSons]
        rw [if_pos ((h7 b).2 ⟨l, by omega, hb⟩)]
      rw [sa, sb]
      constructor
      · intro x hx
        obtain ⟨b', hb', hx⟩ := List.mem_flatMap.1 hx
        obtain ⟨a', ha', hx⟩ := List.mem_flatMap.1 hx
        obtain ⟨i, hi, rfl⟩ := mem_sons.1 ha'
        obtain ⟨j, hj, rfl⟩ := mem_sons.1 hb'
        exact (ih (l + 1) (son a i) (son b j) f (mem_leaves_succ.2 ⟨a, ha, i, hi, rfl⟩)
          (mem_leaves_succ.2 ⟨b, hb, j, hj, rfl⟩) (by omega) (by omega) (by omega)).1 x hx
      · intro r c
        have e1 := (mem_leaves.1 ha).2.1
        have e2 := (mem_leaves.1 hb).2.1
        rw [← ind_sons P M a (by omega) r, ← ind_sons P M b (by omega) c]
        apply leaves_sum
        intro a' ha' b' hb'
        obtain ⟨i, hi, rfl⟩ := mem_sons.1 ha'
        obtain ⟨j, hj, rfl⟩ := mem_sons.1 hb'
        exact (ih (l + 1) (son a i) (son b j) f (mem_leaves_succ.2 ⟨a, ha, i, hi, rfl⟩)
          (mem_leaves_succ.2 ⟨b, hb, j, hj, rfl⟩) (by omega) (by omega) (by omega)).2 r c
    · obtain ⟨g, hg⟩ := leafPointers_leaf t B eta m f (some a) (some b)
        (distance t (clusterBegin t (some a)) (clusterEnd t (some a)))
        (distance t (clusterBegin t (some b)) (clusterEnd t (some b))) hr
      rw [hg]
      refine ⟨?_, fun r c => countP_single P M r c _⟩
      intro x hx
      rw [List.mem_singleton] at hx
      subst hx
      exact ⟨hca, hcb, da, db, rfl, hr, Or.inr ⟨l, a, b, rfl, rfl, ha, hb, by omega, by omega⟩⟩

theorem block_facts (B : Addr → Ball E) (eta : ℝ) (m : Int) (hm : 0 ≤ m) :
    (∀ x ∈ leafPointers (initBlockClusterTree t B eta m), LeafOK P M t B eta m x) ∧
      ∀ r c, (leafPointers (initBlockClusterTree t B eta m)).countP (inB P M r c) = ind P M none r * ind P M none c := by
  have hc : IsCluster P M none := fun a h => by cases h
  obtain ⟨-, -, da, -, -⟩ := cluster_iter hP h3 h4 h5 h6 h7 hc
  unfold initBlockClusterTree
  by_cases hr : compareCluster t B eta m none none = Adm.refine
  · have hlt : ¬ ((M : Int) + 1 ≤ m) := by
      intro h
      rw [compare_root, h4, if_pos h] at hr
      cases hr
    rw [leafPointers_refine t B eta m _ _ _ _ _ hr]
    have hs : clusterSons t none = (List.range P).map fun i => (i, []) := by simp only [clusterSons]; rw [h5]
    rw [hs]
    have key : ∀ a' ∈ (List.range P).map (fun i => ((i, []) : Addr)), a' ∈ leaves P 0 := by
      intro a' ha'
      obtain ⟨i, hi, rfl⟩ := List.mem_map.1 ha'
      exact mem_leaves.2 ⟨List.mem_range.1 hi, rfl, by simp⟩
    constructor
    · intro x hx
      obtain ⟨b', hb', hx⟩ := List.mem_flatMap.1 hx
      obtain ⟨a', ha', hx⟩ := List.mem_flatMap.1 hx
      exact (subtree_facts hP h2 h3 h4 h5 h6 h7 B eta m hm M 0 a' b' (t.maxLevel + 2) (key a' ha') (key b' hb')
        (by omega) (by omega) (by omega)).1 x hx
    · intro r c
      rw [← ind_patches P M r, ← ind_patches P M c]
      apply leaves_sum
      intro a' ha' b' hb'
      exact (subtree_facts hP h2 h3 h4 h5 h6 h7 B eta m hm M 0 a' b' (t.maxLevel + 2) (key a' ha') (key b' hb')
        (by omega) (by omega) (by omega)).2 r c
  · obtain ⟨g, hg⟩ := leafPointers_leaf t B eta m (t.maxLevel + 2) none none (some t.nElements) (some t.nElements) hr
    rw [hg]
    refine ⟨?_, fun r c => countP_single P M r c _⟩
    intro x hx
    rw [List.mem_singleton] at hx
    subst hx
    have e : some t.nElements = some (hi P M none - lo M none) := by
      rw [h3]; simp [hi, lo]
    exact ⟨hc, hc, e, e, rfl, hr, Or.inl ⟨rfl, rfl⟩⟩

omit hP h2 h3 h4 h5 h6 h7

theorem unique_of_countP {α : Type} (p : α → Bool) (L : List α) (h : L.countP p = 1) :
    ∃! k : Nat, ∃ b, L[k]? = some b ∧ p b = true := by
  induction L with
  | nil => simp at h
  | cons a L ih =>
    rw [List.countP_cons] at h
    by_cases ha : p a = true
    · rw [if_pos ha] at h
      refine ⟨0, ⟨a, rfl, ha⟩, ?_⟩
      rintro k ⟨b, hb, hpb⟩
      cases k with
      | zero => rfl
      | succ k =>
        exfalso
        rw [List.getElem?_cons_succ] at hb
        have : 0 < L.countP p := List.countP_pos_iff.2 ⟨b, List.mem_of_getElem? hb, hpb⟩
        omega
    · rw [if_neg ha] at h
      obtain ⟨k, ⟨b, hb, hpb⟩, hu⟩ := ih (by omega)
      refine ⟨k + 1, ⟨b, by rw [List.getElem?_cons_succ]; exact hb, hpb⟩, ?_⟩
      rintro j ⟨b', hb', hpb'⟩
      cases j with
      | zero => rw [List.getElem?_cons_zero] at hb'; cases hb'; exact absurd hpb' ha
      | succ j =>
        rw [List.getElem?_cons_succ] at hb'
        rw [hu j ⟨b', hb', hpb'⟩]

/-! ## C36 -/

/-- C36: for every mesh, every assignment of midpoints and radii, every `eta` and every minimal cluster level `≥ 0`:
every leaf of the block cluster tree has a non-empty index block inside the matrix whose size fits to the numbers of
rows and columns stored in the leaf, and every matrix entry lies in the block of exactly one leaf. -/
theorem C36_partition (P M pp : Nat) (hP : 0 < P) (hpp : 0 < pp) (B : Addr → Ball E) (eta : ℝ) (minLevel : Int)
    (hm : 0 ≤ minLevel) :
    ∃ t : Mesh.Tree K, initElementTree near corner P M = some t ∧
      let L := leafPointers (initBlockClusterTree t B eta minLevel)
      (∀ b ∈ L, ∃ r0 r1 c0 c1, rowStart t pp b = some r0 ∧ rowEnd t pp b = some r1 ∧ colStart t pp b = some c0 ∧
        colEnd t pp b = some c1 ∧ r0 < r1 ∧ c0 < c1 ∧ r1 ≤ pp * t.nElements ∧ c1 ≤ pp * t.nElements ∧
        b.rows.map (pp * ·) = some (r1 - r0) ∧ b.cols.map (pp * ·) = some (c1 - c0)) ∧
      ∀ r < pp * t.nElements, ∀ c < pp * t.nElements, ∃! k : Nat, ∃ b, L[k]? = some b ∧ Covers t pp b r c := by
  obtain ⟨t, h1, h2, h3, h4, h5, h6, h7⟩ := tree_facts (K := K) near corner P M hP
  refine ⟨t, h1, ?_⟩
  intro L
  obtain ⟨f1, f2⟩ := block_facts hP h2 h3 h4 h5 h6 h7 B eta minLevel hm
  have hL : ∀ b ∈ L, rowStart t pp b = some (pp * lo M b.cluster1) ∧ rowEnd t pp b = some (pp * hi P M b.cluster1) ∧
      colStart t pp b = some (pp * lo M b.cluster2) ∧ colEnd t pp b = some (pp * hi P M b.cluster2) := by
    intro b hb
    obtain ⟨a1, a2, -, -, -⟩ := cluster_iter hP h3 h4 h5 h6 h7 (f1 b hb).c1
    obtain ⟨b1, b2, -, -, -⟩ := cluster_iter hP h3 h4 h5 h6 h7 (f1 b hb).c2
    exact ⟨by unfold rowStart; rw [a1]; rfl, by unfold rowEnd; rw [a2]; rfl, by unfold colStart; rw [b1]; rfl,
      by unfold colEnd; rw [b2]; rfl⟩
  constructor
  · intro b hb
    obtain ⟨e1, e2, e3, e4⟩ := hL b hb
    obtain ⟨-, -, -, a4, a5⟩ := cluster_iter hP h3 h4 h5 h6 h7 (f1 b hb).c1
    obtain ⟨-, -, -, b4, b5⟩ := cluster_iter hP h3 h4 h5 h6 h7 (f1 b hb).c2
    refine ⟨_, _, _, _, e1, e2, e3, e4, Nat.mul_lt_mul_of_pos_left a4 hpp, Nat.mul_lt_mul_of_pos_left b4 hpp, ?_, ?_,
      ?_, ?_⟩
    · rw [h3]; exact Nat.mul_le_mul_left _ a5
    · rw [h3]; exact Nat.mul_le_mul_left _ b5
    · rw [(f1 b hb).rows, Option.map_some, Nat.mul_sub]
    · rw [(f1 b hb).cols, Option.map_some, Nat.mul_sub]
  · intro r hr c hc
    have hr' : r / pp < P * 4 ^ M := by
      rw [Nat.div_lt_iff_lt_mul hpp, Nat.mul_comm, ← h3]; exact hr
    have hc' : c / pp < P * 4 ^ M := by
      rw [Nat.div_lt_iff_lt_mul hpp, Nat.mul_comm, ← h3]; exact hc
    have hcount := f2 (r / pp) (c / pp)
    have o1 : ind P M none (r / pp) = 1 := by
      unfold ind
      rw [if_pos ⟨Nat.zero_le _, hr'⟩]
    have o2 : ind P M none (c / pp) = 1 := by
      unfold ind
      rw [if_pos ⟨Nat.zero_le _, hc'⟩]
    rw [o1, o2] at hcount
    obtain ⟨k, ⟨b, hb, hp⟩, hu⟩ := unique_of_countP _ _ hcount
    have hiff : ∀ b ∈ L, Covers t pp b r c ↔ inB P M (r / pp) (c / pp) b = true := by
      intro b hb
      obtain ⟨e1, e2, e3, e4⟩ := hL b hb
      unfold Covers inB
      rw [e1, e2, e3, e4]
      simp only [Option.some_inj, Bool.and_eq_true, decide_eq_true_eq]
      rw [Nat.le_div_iff_mul_le hpp, Nat.le_div_iff_mul_le hpp, Nat.div_lt_iff_lt_mul hpp, Nat.div_lt_iff_lt_mul hpp,
        Nat.mul_comm _ pp, Nat.mul_comm _ pp, Nat.mul_comm _ pp, Nat.mul_comm _ pp]
      constructor
      · rintro ⟨_, _, _, _, rfl, rfl, rfl, rfl, x1, x2, x3, x4⟩
        exact ⟨⟨x1, x2⟩, x3, x4⟩
      · rintro ⟨⟨x1, x2⟩, x3, x4⟩
        exact ⟨_, _, _, _, rfl, rfl, rfl, rfl, x1, x2, x3, x4⟩
    refine ⟨k, ⟨b, hb, (hiff b (List.mem_of_getElem? hb)).2 hp⟩, ?_⟩
    rintro k' ⟨b', hb', hc⟩
    exact hu k' ⟨b', hb', (hiff b' (List.mem_of_getElem? hb')).1 hc⟩

/-! ## C37 -/

/-- C37: every compressed leaf belongs to two clusters of the same level `l` with at least `minLevel` levels below them
(so that the coupling level `M - minLevel - l` of the interpolation exists), and its clusters are separated: the larger
radius is less than `eta` times the positive distance of the balls.  Every dense leaf belongs to two clusters of the same
level exactly `minLevel` levels above the elements that are not separated in this way, except that the whole matrix is one dense block if `M + 1 ≤ minLevel`. -/
theorem C37_admissible (P M : Nat) (hP : 0 < P) (B : Addr → Ball E) (hB : ∀ l ≤ M, ∀ a, IsNode P l a → 0 ≤ (B a).rad)
    (eta : ℝ) (minLevel : Int) (hm : 0 ≤ minLevel) :
    ∃ t : Mesh.Tree K, initElementTree near corner P M = some t ∧
      ∀ x ∈ leafPointers (initBlockClusterTree t B eta minLevel),
        (x.cc = Adm.lowRank ∧ ∃ l a b, x.cluster1 = some a ∧ x.cluster2 = some b ∧ IsNode P l a ∧ IsNode P l b ∧
          minLevel ≤ (M : Int) - l ∧ (B a).rad + (B b).rad < ‖(B a).mid - (B b).mid‖ ∧
          max (B a).rad (B b).rad < eta * (‖(B a).mid - (B b).mid‖ - (B a).rad - (B b).rad)) ∨
        (x.cc = Adm.dense ∧ ((∃ l a b, x.cluster1 = some a ∧ x.cluster2 = some b ∧ IsNode P l a ∧ IsNode P l b ∧
          (M : Int) - l = minLevel ∧ ((B a).rad + (B b).rad < ‖(B a).mid - (B b).mid‖ →
            eta * (‖(B a).mid - (B b).mid‖ - (B a).rad - (B b).rad) ≤ max (B a).rad (B b).rad)) ∨ (x.cluster1 = none ∧ x.cluster2 = none ∧ (M : Int) + 1 ≤ minLevel))) := by
  obtain ⟨t, h1, h2, h3, h4, h5, h6, h7⟩ := tree_facts (K := K) near corner P M hP
  refine ⟨t, h1, ?_⟩
  obtain ⟨f1, -⟩ := block_facts hP h2 h3 h4 h5 h6 h7 B eta minLevel hm
  intro x hx
  have hL := f1 x hx
  have hcc := hL.cc
  have hleaf := hL.leaf
  rcases hL.pos with ⟨e1, e2⟩ | ⟨l, a, b, e1, e2, ha, hb, hl, hml⟩
  · rw [e1, e2, compare_root, h4] at hcc
    rw [hcc] at hleaf
    by_cases h : (M : Int) + 1 ≤ minLevel
    · rw [if_pos h] at hcc
      exact Or.inr ⟨hcc, Or.inr ⟨e1, e2, h⟩⟩
    · rw [if_neg h] at hleaf
      exact absurd rfl hleaf
  · have hlev : t.level a = l := by
      have := (h2 l (by omega) a ha).2.1
      rwa [(mem_leaves.1 ha).2.1] at this
    have na := mem_leaves.1 ha
    have nb := mem_leaves.1 hb
    have ra := hB l hl a na
    have rb := hB l hl b nb
    rw [e1, e2, compare_some, h4, hlev] at hcc
    rw [hcc] at hleaf
    split at hcc
    · rename_i h
      left
      have hpos : 0 ≤ max (B a).rad (B b).rad := le_max_of_le_left ra
      rcases le_or_gt (‖(B a).mid - (B b).mid‖ - (B a).rad - (B b).rad) 0 with hd | hd
      · rw [max_eq_right hd, mul_zero] at h
        exact absurd h (not_lt.2 hpos)
      · rw [max_eq_left hd.le] at h
        exact ⟨hcc, l, a, b, e1, e2, na, nb, hml, by linarith, h⟩
    · rename_i h
      rw [if_neg h] at hleaf
      by_cases h' : (M : Int) - l ≤ minLevel
      · rw [if_pos h'] at hcc
        refine Or.inr ⟨hcc, Or.inl ⟨l, a, b, e1, e2, na, nb, by omega, fun hsep => ?_⟩⟩
        have hd : max (‖(B a).mid - (B b).mid‖ - (B a).rad - (B b).rad) 0 = ‖(B a).mid - (B b).mid‖ - (B a).rad - (B b).rad :=
          max_eq_left (by linarith)
        rw [hd] at h
        exact not_lt.1 h
      · rw [if_neg h'] at hleaf
        exact absurd rfl hleaf

end

/-- C37: clusters with a common mesh vertex are never compressed: with the balls computed for the mesh, a compressed leaf
has no surface point that is a vertex of an element of both clusters. -/
theorem C37_touching {W : Type} [NormedAddCommGroup W] [NormedSpace ℝ W] (near : W → W → Bool)
    (corner : Nat → Nat → W) (P M : Nat) (hP : 0 < P) (hc : ConformingPatches near corner P) (F : Nat → ℝ × ℝ → W)
    (hw : Watertight corner P F) (junk : Nat → W) (B0 : Addr → Ball W) (eta : ℝ) (minLevel : Int) (hm : 0 ≤ minLevel) :
    ∃ t : Mesh.Tree ℝ, initElementTree near corner P M = some t ∧ ∃ B, computeElementEnclosings t F junk B0 = some B ∧
      ∀ x ∈ leafPointers (initBlockClusterTree t B eta minLevel), x.cc = Adm.lowRank →
        ∀ a b, x.cluster1 = some a → x.cluster2 = some b → ∀ a' b', IsNode P M a' → IsNode P M b' →
          a'.1 = a.1 → (∃ w, a'.2 = w ++ a.2) → b'.1 = b.1 → (∃ w, b'.2 = w ++ b.2) → ∀ i < 4, ∀ j < 4,
          F (t.patch a') ((t.llc a').1 + getH t a' * (cornerPoint i : ℝ × ℝ).1,
              (t.llc a').2 + getH t a' * (cornerPoint i : ℝ × ℝ).2) ≠
            F (t.patch b') ((t.llc b').1 + getH t b' * (cornerPoint j : ℝ × ℝ).1,
              (t.llc b').2 + getH t b' * (cornerPoint j : ℝ × ℝ).2) := by
  obtain ⟨t, h1, B, hBe, hB⟩ := C24_balls near corner P M hP hc F hw junk B0
  refine ⟨t, h1, B, hBe, ?_⟩
  obtain ⟨t', h1', hadm⟩ := C37_admissible (K := ℝ) near corner P M hP B (fun l hl a ha => (hB l hl a ha).1) eta minLevel hm
  obtain rfl : t' = t := Option.some.inj (h1'.symm.trans h1)
  intro x hx hlow a b ea eb a' b' ha' hb' pa wa pb wb i hi j hj heq
  rcases hadm x hx with ⟨-, l, a2, b2, e1, e2, na, nb, hml, hsep, -⟩ | ⟨hd, -⟩
  · rw [ea] at e1
    rw [eb] at e2
    cases e1
    cases e2
    have hl : l ≤ M := by omega
    have q1 := (hB l hl a na).2.1 a' ha' pa wa i hi
    have q2 := (hB l hl b nb).2.1 b' hb' pb wb j hj
    rw [heq] at q1
    generalize F (t'.patch b') _ = p at q1 q2
    have : ‖(B a).mid - (B b).mid‖ ≤ ‖p - (B a).mid‖ + ‖p - (B b).mid‖ := by
      calc ‖(B a).mid - (B b).mid‖ = ‖(p - (B b).mid) - (p - (B a).mid)‖ := by congr 1; abel
        _ ≤ ‖p - (B b).mid‖ + ‖p - (B a).mid‖ := norm_sub_le _ _
        _ = _ := add_comm _ _
    linarith
  · rw [hlow] at hd
    cases hd

/-- C24: two clusters (of any levels) with a common mesh vertex: their balls intersect, so the distance of the far field criterion is zero
and the criterion does not accept the pair, for all parameters of the criterion. -/
theorem C24_touching {W : Type} [NormedAddCommGroup W] [NormedSpace ℝ W] (near : W → W → Bool)
    (corner : Nat → Nat → W) (P M : Nat) (hP : 0 < P) (hc : ConformingPatches near corner P) (F : Nat → ℝ × ℝ → W)
    (hw : Watertight corner P F) (junk : Nat → W) (B0 : Addr → Ball W) :
    ∃ t : Mesh.Tree ℝ, initElementTree near corner P M = some t ∧ ∃ B, computeElementEnclosings t F junk B0 = some B ∧
      ∀ l ≤ M, ∀ l' ≤ M, ∀ a b, IsNode P l a → IsNode P l' b → ∀ a' b', IsNode P M a' → IsNode P M b' →
          a'.1 = a.1 → (∃ w, a'.2 = w ++ a.2) → b'.1 = b.1 → (∃ w, b'.2 = w ++ b.2) → ∀ i < 4, ∀ j < 4,
          F (t.patch a') ((t.llc a').1 + getH t a' * (cornerPoint i : ℝ × ℝ).1,
              (t.llc a').2 + getH t a' * (cornerPoint i : ℝ × ℝ).2) =
            F (t.patch b') ((t.llc b').1 + getH t b' * (cornerPoint j : ℝ × ℝ).1,
              (t.llc b').2 + getH t b' * (cornerPoint j : ℝ × ℝ).2) →
          max (‖(B a).mid - (B b).mid‖ - (B a).rad - (B b).rad) 0 = 0 ∧
          ∀ (eta : ℝ) (minLevel : Int), compareCluster t B eta minLevel (some a) (some b) ≠ Adm.lowRank := by
  obtain ⟨t, h1, B, hBe, hB⟩ := C24_balls near corner P M hP hc F hw junk B0
  refine ⟨t, h1, B, hBe, ?_⟩
  intro l hl l' hl' a b na nb a' b' ha' hb' pa wa pb wb i hi j hj heq
  have q1 := (hB l hl a na).2.1 a' ha' pa wa i hi
  have q2 := (hB l' hl' b nb).2.1 b' hb' pb wb j hj
  rw [heq] at q1
  generalize F (t.patch b') _ = p at q1 q2
  have htri : ‖(B a).mid - (B b).mid‖ ≤ ‖p - (B a).mid‖ + ‖p - (B b).mid‖ := by
    calc ‖(B a).mid - (B b).mid‖ = ‖(p - (B b).mid) - (p - (B a).mid)‖ := by congr 1; abel
      _ ≤ ‖p - (B b).mid‖ + ‖p - (B a).mid‖ := norm_sub_le _ _
      _ = _ := add_comm _ _
  have h0 : max (‖(B a).mid - (B b).mid‖ - (B a).rad - (B b).rad) 0 = 0 := max_eq_right (by linarith)
  refine ⟨h0, fun eta minLevel h => ?_⟩
  rw [compare_some, h0, mul_zero, if_neg (not_lt.2 ((hB l hl a na).1.trans (le_max_left _ _)))] at h
  split at h <;> cases h

/-- The condition that the minimal cluster level is not negative is needed: with -1 the recursion ends at elements without
producing a leaf, and the matrix is empty. -/
theorem C36_needs_level (near : Nat → Nat → Bool) (corner : Nat → Nat → Nat) (B : Addr → Ball ℝ) (hB : ∀ a, 0 ≤ (B a).rad) :
    ∃ t : Mesh.Tree ℚ, initElementTree near corner 1 0 = some t ∧
      leafPointers (initBlockClusterTree t B 1 (-1)) = [] := by
  obtain ⟨t, h1, h2, h3, h4, h5, h6, h7⟩ := tree_facts (K := ℚ) near corner 1 0 (by omega)
  refine ⟨t, h1, ?_⟩
  unfold initBlockClusterTree
  have r0 : compareCluster t B 1 (-1) none none = Adm.refine := by
    rw [compare_root, h4, if_neg (by norm_num)]
  rw [leafPointers_refine t B 1 (-1) _ none none _ _ r0]
  have hs : clusterSons t none = [((0, []) : Addr)] := by simp only [clusterSons]; rw [h5]; rfl
  rw [hs]
  simp only [List.flatMap_cons, List.flatMap_nil, List.append_nil]
  have hn : ((0, []) : Addr) ∈ leaves 1 0 := mem_leaves.2 ⟨by simp, rfl, by simp⟩
  have hlev : t.level (0, []) = 0 := (h2 0 le_rfl _ hn).2.1
  have r1 : compareCluster t B 1 (-1) (some (0, [])) (some (0, [])) = Adm.refine := by
    have := hB (0, [])
    rw [compare_some, h4, hlev, sub_self, norm_zero]
    rw [max_eq_right (by linarith : (0 : ℝ) - (B (0, [])).rad - (B (0, [])).rad ≤ 0), mul_zero, max_self,
      if_neg (not_lt.2 this), if_neg (by norm_num)]
  rw [leafPointers_refine t B 1 (-1) _ _ _ _ _ r1]
  have hnr : t.refined (0, []) = false := by
    rw [Bool.eq_false_iff]
    intro h
    obtain ⟨j, hj, _⟩ := (h7 _).1 h
    omega
  simp only [clusterSons, hnr]
  rfl

/-- Non-vacuity: default parameters on a cube, refined three times. -/
example (B : Addr → Ball (EuclideanSpace ℝ (Fin 3))) : ∃ t : Mesh.Tree ℚ,
    initElementTree (fun a b : Nat => a == b) cubeCorner 6 3 = some t ∧
      ∀ r < 4 * t.nElements, ∀ c < 4 * t.nElements, ∃! k : Nat, ∃ b,
        (leafPointers (initBlockClusterTree t B 1.6 1))[k]? = some b ∧ Covers t 4 b r c := by
  obtain ⟨t, h1, -, h2⟩ := C36_partition (K := ℚ) (fun a b : Nat => a == b) cubeCorner 6 3 4 (by omega) (by omega) B 1.6 1
    (by omega)
  exact ⟨t, h1, h2⟩

end Bembel.Props
