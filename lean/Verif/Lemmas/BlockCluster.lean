import Verif.Model.BlockClusterTree
import Verif.Props.Mesh
/-!
# Lemmas about the block cluster tree
-/

set_option linter.unusedSectionVars false

namespace Bembel
namespace BlockCluster

open Mesh Util Bembel.Props

/-- first element number of a cluster -/
def lo (M : Nat) : Cluster → Nat
  | none => 0
  | some a => pathId a.1 a.2 * 4 ^ (M - a.2.length)

/-- one more than the last element number of a cluster -/
def hi (P M : Nat) : Cluster → Nat
  | none => P * 4 ^ M
  | some a => (pathId a.1 a.2 + 1) * 4 ^ (M - a.2.length)

/-- indicator of the element range of a cluster -/
def ind (P M : Nat) (c : Cluster) (r : Nat) : Nat := if lo M c ≤ r ∧ r < hi P M c then 1 else 0

theorem flatMap_range_getElem? {α β : Type} (l : List α) (f : α → List β) (g : List β) :
    ((List.range l.length).flatMap fun i => match l[i]? with
      | some a => f a
      | none => g) = l.flatMap f := by
  have h : l = (List.range l.length).filterMap fun i => l[i]? := by
    induction l with
    | nil => rfl
    | cons a l ih =>
      rw [List.length_cons, List.range_succ_eq_map, List.filterMap_cons]
      simp only [List.getElem?_cons_zero, List.filterMap_map]
      congr 1
  conv_rhs => rw [h]
  rw [List.flatMap_def, List.flatMap_def]
  congr 1
  have : ∀ (n : Nat), n ≤ l.length → (List.range n).map (fun i => match l[i]? with
      | some a => f a
      | none => g) = ((List.range n).filterMap fun i => l[i]?).map f := by
    intro n
    induction n with
    | zero => intro _; rfl
    | succ n ih =>
      intro hn
      rw [List.range_succ, List.map_append, List.filterMap_append, List.map_append, ih (by omega)]
      simp [List.getElem?_eq_getElem (show n < l.length by omega)]
  exact this _ le_rfl

theorem countP_flatMap' {α β : Type} (l : List α) (f : α → List β) (p : β → Bool) :
    (l.flatMap f).countP p = (l.map fun a => (f a).countP p).sum := by
  induction l with
  | nil => rfl
  | cons a l ih => rw [List.flatMap_cons, List.countP_append, ih, List.map_cons, List.sum_cons]

theorem sum_map_mul (l : List Nat) (k : Nat) : (l.map (· * k)).sum = l.sum * k := by
  induction l with
  | nil => simp
  | cons a l ih => rw [List.map_cons, List.sum_cons, ih, List.sum_cons, Nat.add_mul]

theorem ind_sons (P M : Nat) (a : Addr) (h : a.2.length < M) (r : Nat) :
    ((Mesh.sons a).map fun s => ind P M (some s) r).sum = ind P M (some a) r := by
  obtain ⟨d, rfl⟩ : ∃ d, M = a.2.length + 1 + d := ⟨M - (a.2.length + 1), by omega⟩
  have hlo : ∀ i < 4, lo (a.2.length + 1 + d) (some (son a i)) = pathId a.1 a.2 * 4 ^ d * 4 + i * 4 ^ d := by
    intro i _
    simp only [lo, son, List.length_cons, pathId]
    rw [show a.2.length + 1 + d - (a.2.length + 1) = d by omega]
    ring
  have hhi : ∀ i < 4, hi P (a.2.length + 1 + d) (some (son a i)) = pathId a.1 a.2 * 4 ^ d * 4 + (i + 1) * 4 ^ d := by
    intro i _
    simp only [hi, son, List.length_cons, pathId]
    rw [show a.2.length + 1 + d - (a.2.length + 1) = d by omega]
    ring
  have hl : lo (a.2.length + 1 + d) (some a) = pathId a.1 a.2 * 4 ^ d * 4 := by
    simp only [lo]
    rw [show a.2.length + 1 + d - a.2.length = d + 1 by omega, pow_succ]
    ring
  have hh : hi P (a.2.length + 1 + d) (some a) = pathId a.1 a.2 * 4 ^ d * 4 + 4 * 4 ^ d := by
    simp only [hi]
    rw [show a.2.length + 1 + d - a.2.length = d + 1 by omega, pow_succ]
    ring
  rw [sons_eq]
  simp only [List.map_cons, List.map_nil, List.sum_cons, List.sum_nil, ind]
  rw [hlo 0 (by omega), hlo 1 (by omega), hlo 2 (by omega), hlo 3 (by omega), hhi 0 (by omega), hhi 1 (by omega),
    hhi 2 (by omega), hhi 3 (by omega), hl, hh]
  generalize pathId a.1 a.2 * 4 ^ d * 4 = z
  generalize 4 ^ d = q
  split_ifs <;> omega

theorem ind_patches (P M r : Nat) :
    (((List.range P).map fun i => ((i, []) : Addr)).map fun s => ind P M (some s) r).sum = ind P M none r := by
  rw [List.map_map]
  have : ∀ n, (((List.range n).map ((fun s => ind P M (some s) r) ∘ fun i => ((i, []) : Addr))).sum =
      if r < n * 4 ^ M then 1 else 0) := by
    intro n
    induction n with
    | zero => simp
    | succ n ih =>
      rw [List.range_succ, List.map_append, List.sum_append, ih]
      have e : (n + 1) * 4 ^ M = n * 4 ^ M + 4 ^ M := by ring
      have h1 : lo M (some (n, [])) = n * 4 ^ M := by simp [lo, pathId]
      have h2 : hi P M (some (n, [])) = n * 4 ^ M + 4 ^ M := by simp [hi, pathId, e]
      simp only [List.map_cons, List.map_nil, List.sum_cons, List.sum_nil, Function.comp, ind]
      rw [h1, h2, e]
      generalize n * 4 ^ M = z
      generalize 4 ^ M = q
      split_ifs <;> omega
  rw [this P]
  simp only [ind, lo, hi, Nat.zero_le, true_and]

section
variable {K : Type} [Field K] [CharZero K] {V : Type} (near : V → V → Bool) (corner : Nat → Nat → V)

/-- valid clusters -/
def IsCluster (P M : Nat) (c : Cluster) : Prop := ∀ a, c = some a → ∃ l ≤ M, a ∈ leaves P l

theorem index_leaves {P l : Nat} {a : Addr} {A B : List Addr} (h : leaves P l = A ++ a :: B) :
    A.length = pathId a.1 a.2 := by
  have e := congrArg (fun L : List Nat => L[A.length]?) (leaves_ids P l)
  simp only [h, List.map_append, List.map_cons] at e
  rw [List.getElem?_append_right (by simp)] at e
  simp only [List.length_map, Nat.sub_self, List.getElem?_cons_zero] at e
  have hlt : A.length < P * 4 ^ l := by
    rw [← leaves_length P l, h, List.length_append, List.length_cons]; omega
  rw [List.getElem?_range hlt, Option.some_inj] at e
  exact e.symm

theorem flatMap_below_length (A : List Addr) (d : Nat) : (A.flatMap fun a => below a d).length = A.length * 4 ^ d := by
  induction A with
  | nil => simp
  | cons a A ih => rw [List.flatMap_cons, List.length_append, ih, below_length, List.length_cons]; ring

/-- Everything about iterators that is needed. -/
theorem cluster_segment {P M : Nat} (hP : 0 < P) {t : Mesh.Tree K} (h4 : t.maxLevel = M)
    (h5 : t.nPatches = P) (h6 : Chain t.links (leaves P M)) (h7 : ∀ b, t.refined b = true ↔ ∃ j < M, b ∈ leaves P j)
    {c : Cluster} (hc : IsCluster P M c) :
    clusterBegin t none = hd (leaves P M) none ∧
    ∃ A C B : List Addr, leaves P M = A ++ (C ++ B) ∧ A.length = lo M c ∧ C.length = hi P M c - lo M c ∧
      C ≠ [] ∧ clusterBegin t c = hd (C ++ B) none ∧ clusterEnd t c = hd B none := by
  have hs := h6.1
  have hnd := leaves_nodup P M
  have hroot : clusterBegin t none = hd (leaves P M) none := by
    obtain ⟨Q, rfl⟩ : ∃ Q, P = Q + 1 := ⟨P - 1, by omega⟩
    simp only [clusterBegin]
    rw [if_neg (by omega), h4, descend_eq t.refined 0 _ M (by omega) h7 M (0, []) 0 _
      (mem_leaves.2 ⟨by simp, rfl, by simp⟩) (by omega) (by omega)]
    obtain ⟨B1, hB1⟩ := below_first (0, []) M
    unfold leaves
    rw [List.range_succ_eq_map, List.flatMap_cons, hB1]
    rfl
  -- a description of begin and end by a decomposition of the list
  have main : ∃ A C B : List Addr, leaves P M = A ++ (C ++ B) ∧ A.length = lo M c ∧ C.length = hi P M c - lo M c ∧
      C ≠ [] ∧ clusterBegin t c = hd (C ++ B) none ∧ clusterEnd t c = hd B none := by
    cases c with
    | none =>
      refine ⟨[], leaves P M, [], by simp, rfl, by simp [leaves_length, hi, lo], ?_, ?_, ?_⟩
      · intro h
        have := leaves_length P M
        rw [h] at this
        have : 0 < P * 4 ^ M := Nat.mul_pos hP (by positivity)
        simp_all
      · rw [List.append_nil]; exact hroot
      · obtain ⟨Q, rfl⟩ : ∃ Q, P = Q + 1 := ⟨P - 1, by omega⟩
        simp only [clusterEnd]
        rw [if_neg (by omega), h4, h5, Nat.add_sub_cancel, descend_eq t.refined 3 _ M (by omega) h7 M (Q, []) 0 _
          (mem_leaves.2 ⟨by simp, rfl, by simp⟩) (by omega) (by omega)]
        obtain ⟨B1, hB1⟩ := below_last (Q, []) M
        have h := hs
        unfold leaves at h
        rw [List.range_succ, List.flatMap_append, List.flatMap_cons, List.flatMap_nil, List.append_nil, hB1,
          ← List.append_assoc, seg_append] at h
        exact h.2.2.1
    | some a =>
      obtain ⟨l, hl, ha⟩ := hc a rfl
      obtain ⟨d, rfl⟩ : ∃ d, M = l + d := ⟨M - l, by omega⟩
      have hal := (mem_leaves.1 ha).2.1
      obtain ⟨A, B, hAB⟩ := List.append_of_mem ha
      have hsplit : leaves P (l + d) = A.flatMap (fun a => below a d) ++ (below a d ++ B.flatMap (fun a => below a d)) := by
        rw [leaves_split, hAB, List.flatMap_append, List.flatMap_cons]
      refine ⟨_, _, _, hsplit, ?_, ?_, ?_, ?_, ?_⟩
      · rw [flatMap_below_length, index_leaves hAB]
        simp only [lo]
        rw [hal, Nat.add_sub_cancel_left]
      · rw [below_length]
        simp only [lo, hi]
        rw [hal, Nat.add_sub_cancel_left, Nat.add_mul, Nat.one_mul, Nat.add_sub_cancel_left]
      · obtain ⟨B1, hB1⟩ := below_first a d
        rw [hB1]; simp
      · simp only [clusterBegin]
        rw [h4, descend_eq t.refined 0 P (l + d) (by omega) h7 d a l _ ha rfl (by omega)]
        obtain ⟨B1, hB1⟩ := below_first a d
        rw [hB1]; rfl
      · simp only [clusterEnd]
        rw [h4, descend_eq t.refined 3 P (l + d) (by omega) h7 d a l _ ha rfl (by omega)]
        obtain ⟨B2, hB2⟩ := below_last a d
        rw [hsplit, seg_append, seg_append] at hs
        have h := hs.2.1
        rw [hB2, seg_append] at h
        exact h.2.2.1
  exact ⟨hroot, main⟩

theorem cluster_iter {P M : Nat} (hP : 0 < P) {t : Mesh.Tree K} (h3 : t.nElements = P * 4 ^ M) (h4 : t.maxLevel = M)
    (h5 : t.nPatches = P) (h6 : Chain t.links (leaves P M)) (h7 : ∀ b, t.refined b = true ↔ ∃ j < M, b ∈ leaves P j)
    {c : Cluster} (hc : IsCluster P M c) :
    distance t (clusterBegin t none) (clusterBegin t c) = some (lo M c) ∧
    distance t (clusterBegin t none) (clusterEnd t c) = some (hi P M c) ∧
    distance t (clusterBegin t c) (clusterEnd t c) = some (hi P M c - lo M c) ∧
    lo M c < hi P M c ∧ hi P M c ≤ P * 4 ^ M := by
  have hs := h6.1
  have hnd := leaves_nodup P M
  obtain ⟨hroot, main⟩ := cluster_segment hP h4 h5 h6 h7 hc
  obtain ⟨A, C, B, e, eA, eC, hC, eb, ee⟩ := main
  have hlen := congrArg List.length e
  rw [leaves_length, List.length_append, List.length_append] at hlen
  have hCpos : 0 < C.length := List.length_pos_iff.2 hC
  rw [e] at hs hnd
  have hnd1 := List.nodup_append.1 hnd
  have hnd2 := List.nodup_append.1 hnd1.2.1
  refine ⟨?_, ?_, ?_, by omega, by omega⟩
  · unfold distance
    rw [hroot, eb, e, hd_append]
    rw [walk_seg t.prev t.next A none _ _ ((seg_append _ _ _ _ _ _).1 hs).1 (by omega) ?_]
    · rw [Option.map_some, eA]
    · intro x hx hxA
      exact hnd1.2.2 x hxA x (hd_mem _ _ hx) rfl
  · unfold distance
    rw [hroot, ee, e, ← List.append_assoc, hd_append]
    rw [← List.append_assoc] at hs
    rw [walk_seg t.prev t.next (A ++ C) none _ _ ((seg_append _ _ _ _ _ _).1 hs).1
      (by rw [List.length_append]; omega) ?_]
    · rw [Option.map_some, List.length_append, eA, eC]; congr 1; omega
    · intro x hx hxA
      rcases List.mem_append.1 hxA with h | h
      · exact hnd1.2.2 x h x (List.mem_append_right _ (hd_mem _ _ hx)) rfl
      · exact hnd2.2.2 x h x (hd_mem _ _ hx) rfl
  · unfold distance
    rw [eb, ee, hd_append]
    have hs' := ((seg_append _ _ _ _ _ _).1 hs).2
    rw [walk_seg t.prev t.next C _ _ _ ((seg_append _ _ _ _ _ _).1 hs').1 (by omega) ?_]
    · rw [Option.map_some, eC]
    · intro x hx hxA
      exact hnd2.2.2 x hxA x (hd_mem _ _ hx) rfl

end

end BlockCluster
end Bembel
