import Verif.Spec.Mesh
import Verif.Lemmas.Mesh

set_option linter.unusedSectionVars false

namespace Bembel
namespace Mesh

open Basis

variable {K : Type} [Field K]

/-! ## fields after `refineLeaf` -/

theorem refineLeaf_eqs (t : Tree K) (c : Addr) (h : t.refined c = false) :
    let pts := forLoop 4 (pointStep t c) (fun _ => 0, t.nPoints, [])
    let p := upd pts.1 4 pts.2.1
    let links := forLoop 4 (linkStep c) ⟨t.prev, t.next, t.pfirst, t.plast⟩
    let vert := setSons t.vert c (fun i => sonVertex (t.vert c) p i)
    (refineLeaf t c).id = setSons t.id c (fun i => 4 * t.id c + i) ∧
    (refineLeaf t c).level = setSons t.level c (fun _ => t.level c + 1) ∧
    (refineLeaf t c).patch = setSons t.patch c (fun _ => t.patch c) ∧
    (refineLeaf t c).llc = setSons t.llc c (fun i =>
        ((t.llc c).1 + llcs 0 i / (2 ^ t.level c : K), (t.llc c).2 + llcs 1 i / (2 ^ t.level c : K))) ∧
    (refineLeaf t c).nElements = t.nElements + 3 ∧
    (refineLeaf t c).maxLevel = (if t.maxLevel < t.level c + 1 then t.level c + 1 else t.maxLevel) ∧
    (refineLeaf t c).prev = links.prev ∧ (refineLeaf t c).next = links.next ∧
    (refineLeaf t c).pfirst = links.pfirst ∧ (refineLeaf t c).plast = links.plast ∧
    (refineLeaf t c).nPoints = pts.2.1 + 1 ∧ (refineLeaf t c).vert = vert ∧
    (refineLeaf t c).adj = updateTopology vert (pts.2.2 ++ sons c) (setSons t.adj c (fun _ _ => none)) := by
  unfold refineLeaf
  rw [h]
  simp only [Bool.false_eq_true, if_false, and_self]

/-- id, level, patch and lower left corner of a node are as specified -/
def GoodNode (t : Tree K) (a : Addr) : Prop :=
  t.id a = pathId a.1 a.2 ∧ t.level a = a.2.length ∧ t.patch a = a.1 ∧
    t.llc a = ((posX a.2 : K) / 2 ^ a.2.length, (posY a.2 : K) / 2 ^ a.2.length)

variable [CharZero K]

theorem goodNode_son (t : Tree K) (c : Addr) (h : t.refined c = false) (hg : GoodNode t c) (i : Nat)
    (hi : i < 4) : GoodNode (refineLeaf t c) (son c i) := by
  obtain ⟨e1, e2, e3, e4, _⟩ := refineLeaf_eqs t c h
  obtain ⟨g1, g2, g3, g4⟩ := hg
  have h2 : (2 : K) ≠ 0 := by exact_mod_cast (two_ne_zero : (2 : ℕ) ≠ 0)
  refine ⟨?_, ?_, ?_, ?_⟩
  · rw [e1, setSons_son _ _ _ _ hi, g1]; rfl
  · rw [e2, setSons_son _ _ _ _ hi, g2]; rfl
  · rw [e3, setSons_son _ _ _ _ hi, g3]; rfl
  · rw [e4, setSons_son _ _ _ _ hi, g4, g2]
    have : i = 0 ∨ i = 1 ∨ i = 2 ∨ i = 3 := by omega
    rcases this with rfl | rfl | rfl | rfl <;>
    · simp only [son, posX, posY, List.length_cons, llcs, pow_succ]
      norm_num
      constructor <;> field_simp

theorem goodNode_refine (t : Tree K) (c b : Addr) (h : t.refined c = false) (hg : GoodNode t c)
    (hb : GoodNode t b) : GoodNode (refineLeaf t c) b := by
  by_cases hs : b ∈ sons c
  · obtain ⟨i, hi, rfl⟩ := mem_sons.1 hs
    exact goodNode_son t c h hg i hi
  · obtain ⟨e1, e2, e3, e4, _⟩ := refineLeaf_eqs t c h
    unfold GoodNode
    rw [e1, e2, e3, e4, setSons_other _ _ _ _ hs, setSons_other _ _ _ _ hs, setSons_other _ _ _ _ hs,
      setSons_other _ _ _ _ hs]
    exact hb

theorem not_refined_of_pass {u : Tree K} {P k : Nat} {pre post : List Addr} {a : Addr}
    (hL : leaves P k = pre ++ a :: post)
    (hr : ∀ b, u.refined b = true ↔ (∃ j < k, b ∈ leaves P j) ∨ b ∈ pre) : u.refined a = false := by
  rw [Bool.eq_false_iff]
  intro h
  rcases (hr a).1 h with ⟨j, hj, h⟩ | h
  · have ha : a ∈ leaves P k := by rw [hL]; simp
    have e1 := (mem_leaves.1 h).2.1
    have e2 := (mem_leaves.1 ha).2.1
    omega
  · have := leaves_nodup P k
    rw [hL] at this
    rw [List.nodup_append] at this
    exact this.2.2 a h a (by simp) rfl

theorem fields_inv (t : Tree K) (P : Nat) (href : ∀ b, t.refined b = false)
    (h0 : ∀ a ∈ leaves P 0, GoodNode t a) (k : Nat) :
    ∀ j ≤ k, ∀ a ∈ leaves P j, GoodNode (levelTree t P k) a := by
  have := level_induction (K := K) (fun k pre _ u => (∀ j ≤ k, ∀ a ∈ leaves P j, GoodNode u a) ∧
    ∀ b ∈ pre, ∀ i < 4, GoodNode u (son b i)) t P
    ⟨fun j hj a ha => by
      obtain rfl : j = 0 := by omega
      exact h0 a ha, by simp⟩
    (by
      intro k pre a post u hL hI hr
      have hnr := not_refined_of_pass hL hr
      have ha : a ∈ leaves P k := by rw [hL]; simp
      have hga := hI.1 k le_rfl a ha
      refine ⟨fun j hj b hb => goodNode_refine u a b hnr hga (hI.1 j hj b hb), ?_⟩
      intro b hb i hi
      rcases List.mem_append.1 hb with hb | hb
      · exact goodNode_refine u a _ hnr hga (hI.2 b hb i hi)
      · rw [List.mem_singleton] at hb
        subst hb
        exact goodNode_son u b hnr hga i hi)
    (by
      intro k u hI
      refine ⟨fun j hj a ha => ?_, by simp⟩
      rcases Nat.lt_or_ge j (k + 1) with h | h
      · exact hI.1 j (by omega) a ha
      · obtain rfl : j = k + 1 := by omega
        obtain ⟨b, hb, i, hi, rfl⟩ := mem_leaves_succ.1 ha
        exact hI.2 b hb i hi)
    href k
  exact this.1

theorem nElements_inv (t : Tree K) (P : Nat) (href : ∀ b, t.refined b = false) (h0 : t.nElements = P) (k : Nat) :
    (levelTree t P k).nElements = P * 4 ^ k := by
  have := level_induction (K := K) (fun k pre _ u => u.nElements = P * 4 ^ k + 3 * pre.length) t P
    (by simp [h0])
    (by
      intro k pre a post u hL hI hr
      obtain ⟨_, _, _, _, e5, _⟩ := refineLeaf_eqs u a (not_refined_of_pass hL hr)
      rw [e5, hI, List.length_append, List.length_singleton]
      omega)
    (by
      intro k u hI
      rw [hI, leaves_length, List.length_nil, pow_succ]
      ring)
    href k
  simpa using this

theorem maxLevel_inv (t : Tree K) (P : Nat) (href : ∀ b, t.refined b = false)
    (h0 : ∀ a ∈ leaves P 0, GoodNode t a) (k : Nat) (hk : k ≤ t.maxLevel) :
    (levelTree t P k).maxLevel = t.maxLevel := by
  have := level_induction (K := K) (fun k pre _ u => ((∀ a ∈ leaves P k, u.level a = k) ∧
    ∀ b ∈ pre, ∀ i < 4, u.level (son b i) = k + 1) ∧
    u.maxLevel ≤ max t.maxLevel (if pre = [] then k else k + 1)) t P
    ⟨⟨fun a ha => by rw [(h0 a ha).2.1, (mem_leaves.1 ha).2.1], by simp⟩, by simp⟩
    (by
      intro k pre a post u hL hI hr
      have hnr := not_refined_of_pass hL hr
      have ha : a ∈ leaves P k := by rw [hL]; simp
      obtain ⟨_, e2, _, _, _, e6, _⟩ := refineLeaf_eqs u a hnr
      refine ⟨⟨fun b hb => ?_, ?_⟩, ?_⟩
      · rw [e2]
        by_cases hs : b ∈ sons a
        · obtain ⟨i, hi, rfl⟩ := mem_sons.1 hs
          have e1 := (mem_leaves.1 hb).2.1
          have e2 := (mem_leaves.1 ha).2.1
          simp only [son, List.length_cons] at e1
          omega
        · rw [setSons_other _ _ _ _ hs]; exact hI.1.1 b hb
      · intro b hb i hi
        rw [e2]
        by_cases hs : son b i ∈ sons a
        · obtain ⟨j, hj, h⟩ := mem_sons.1 hs
          rw [h, setSons_son _ _ _ _ hj, hI.1.1 a ha]
        · rw [setSons_other _ _ _ _ hs]
          rcases List.mem_append.1 hb with hb | hb
          · exact hI.1.2 b hb i hi
          · rw [List.mem_singleton] at hb
            subst hb
            exact absurd (mem_sons.2 ⟨i, hi, rfl⟩) hs
      · rw [e6, hI.1.1 a ha, if_neg (show ¬ (pre ++ [a] = []) by simp)]
        have h2 : u.maxLevel ≤ max t.maxLevel (k + 1) := by
          refine hI.2.trans ?_
          split_ifs <;> omega
        split_ifs <;> omega)
    (by
      intro k u hI
      refine ⟨⟨fun a ha => ?_, by simp⟩, ?_⟩
      · obtain ⟨b, hb, i, hi, rfl⟩ := mem_leaves_succ.1 ha
        exact hI.1.2 b hb i hi
      · rw [if_pos rfl]
        refine hI.2.trans ?_
        split_ifs <;> omega)
    href k
  have h1 := this.2
  rw [if_pos rfl] at h1
  have h2 := levelTree_maxLevel_le t P k
  omega

end Mesh
end Bembel
