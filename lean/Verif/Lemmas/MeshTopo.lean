import Verif.Lemmas.MeshFields
import Mathlib.Data.Sym.Sym2
import Mathlib.Data.Finset.Card
import Mathlib.Data.Finset.Image
/-!
# Lemmas on the topology of the mesh
-/

set_option linter.unusedSectionVars false

namespace Bembel
namespace Mesh

open Basis

/-- The edge `j` of an element as an unordered pair of vertex numbers. -/
abbrev E (vert : Addr → Nat → Nat) (a : Addr) (j : Nat) : Sym2 Nat := elementEdge vert a j

theorem edgeKey_eq_iff (vert : Addr → Nat → Nat) (a b : Addr) (j k : Nat) :
    edgeKey vert a j = edgeKey vert b k ↔ E vert a j = E vert b k := by
  unfold edgeKey E elementEdge
  rw [Sym2.eq_iff]
  dsimp only
  rw [Prod.mk.injEq]
  generalize vert a j = x
  generalize vert a ((j + 1) % 4) = y
  generalize vert b k = z
  generalize vert b ((k + 1) % 4) = w
  constructor
  · rintro ⟨h1, h2⟩
    split_ifs at h1 h2 <;> omega
  · rintro (⟨rfl, rfl⟩ | ⟨rfl, rfl⟩) <;> constructor <;> split_ifs <;> omega

/-! ## `updateTopology` -/

/-- slots of a list of elements in processing order -/
def slots (els : List Addr) : List (Addr × Nat) := els.flatMap fun e => (List.range 4).map fun j => (e, j)

theorem mem_slots {els : List Addr} {e : Addr} {j : Nat} : (e, j) ∈ slots els ↔ e ∈ els ∧ j < 4 := by
  unfold slots
  rw [List.mem_flatMap]
  constructor
  · rintro ⟨f, hf, h⟩
    obtain ⟨k, hk, h⟩ := List.mem_map.1 h
    injection h with h1 h2
    subst h1; subst h2
    exact ⟨hf, List.mem_range.1 hk⟩
  · rintro ⟨he, hj⟩
    exact ⟨e, he, List.mem_map.2 ⟨j, List.mem_range.2 hj, rfl⟩⟩

theorem slots_nodup {els : List Addr} (h : els.Nodup) : (slots els).Nodup := by
  unfold slots
  rw [List.nodup_flatMap]
  refine ⟨fun e _ => List.nodup_range.map (fun i j h => by injection h), ?_⟩
  refine h.imp_of_mem ?_
  intro a b _ _ hab
  rw [Function.onFun, List.disjoint_left]
  intro x hx hy
  obtain ⟨i, _, rfl⟩ := List.mem_map.1 hx
  obtain ⟨j, _, hj⟩ := List.mem_map.1 hy
  injection hj with h1 _
  exact hab h1.symm

theorem updateTopology_slots (vert : Addr → Nat → Nat) (els : List Addr) (adj : Addr → Nat → Option Addr) :
    updateTopology vert els adj =
    ((slots els).foldl (fun st s => topoStep vert s.1 st s.2) ((fun _ => none), adj)).2 := by
  unfold updateTopology slots
  have : ∀ st, els.foldl (fun st e => forLoop 4 (topoStep vert e) st) st =
      (els.flatMap fun e => (List.range 4).map fun j => (e, j)).foldl (fun st s => topoStep vert s.1 st s.2) st := by
    induction els with
    | nil => intro st; rfl
    | cons e els ih =>
      intro st
      rw [List.foldl_cons, List.flatMap_cons, List.foldl_append, ih]
      rfl
  rw [this]

/-- State of the topology loop after the slots `L`. -/
structure TopoInv (vert : Addr → Nat → Nat) (adj : Addr → Nat → Option Addr) (L : List (Addr × Nat))
    (st : TopoState) : Prop where
  none : ∀ e j, st.1 (edgeKey vert e j) = none → ∀ f k, (f, k) ∈ L → E vert f k ≠ E vert e j
  some : ∀ e j f, st.1 (edgeKey vert e j) = some f → ∃ k, (f, k) ∈ L ∧ E vert f k = E vert e j
  pair : ∀ e j f k, (e, j) ∈ L → (f, k) ∈ L → (f, k) ≠ (e, j) → E vert f k = E vert e j → st.2 e j = Option.some f
  other : ∀ e j, ((e, j) ∈ L → ∀ f k, (f, k) ∈ L → (f, k) ≠ (e, j) → E vert f k ≠ E vert e j) → st.2 e j = adj e j

theorem topo_inv_step (vert : Addr → Nat → Nat) (adj : Addr → Nat → Option Addr) (els : List Addr)
    (m1 : ∀ e ∈ els, ∀ j < 4, ∀ k < 4, E vert e j = E vert e k → j = k)
    (m2 : ∀ a b c i j k, (a, i) ∈ slots els → (b, j) ∈ slots els → (c, k) ∈ slots els →
      E vert a i = E vert b j → E vert a i = E vert c k → (a, i) = (b, j) ∨ (a, i) = (c, k) ∨ (b, j) = (c, k))
    (L : List (Addr × Nat)) (e : Addr) (j : Nat) (st : TopoState) (hL : ∀ s ∈ L, s ∈ slots els)
    (he : (e, j) ∈ slots els) (hn : (e, j) ∉ L) (h : TopoInv vert adj L st) :
    TopoInv vert adj (L ++ [(e, j)]) (topoStep vert e st j) := by
  unfold topoStep
  dsimp only
  have hmem : ∀ s, s ∈ L ++ [(e, j)] ↔ s ∈ L ∨ s = (e, j) := by intro s; simp
  cases hst : st.1 (edgeKey vert e j) with
  | none =>
    dsimp only
    have hno := h.none e j hst
    refine ⟨?_, ?_, ?_, ?_⟩
    · intro e' j' h' f k hf
      rw [hmem] at hf
      dsimp only at h'
      split_ifs at h' with hk
      rcases hf with hf | hf
      · exact h.none e' j' h' f k hf
      · injection hf with h1 h2
        subst h1; subst h2
        intro hE
        exact hk ((edgeKey_eq_iff vert e' f j' k).2 hE.symm)
    · intro e' j' f h'
      dsimp only at h'
      split_ifs at h' with hk
      · injection h' with h'
        subst h'
        exact ⟨j, by simp, ((edgeKey_eq_iff vert _ _ _ _).1 hk).symm⟩
      · obtain ⟨k, hk1, hk2⟩ := h.some e' j' f h'
        exact ⟨k, by simp [hk1], hk2⟩
    · intro e' j' f k h1 h2 h3 h4
      rw [hmem] at h1 h2
      rcases h1 with h1 | h1
      · rcases h2 with h2 | h2
        · exact h.pair e' j' f k h1 h2 h3 h4
        · injection h2 with a1 a2
          subst a1; subst a2
          exact absurd h4.symm (hno e' j' h1)
      · injection h1 with a1 a2
        subst a1; subst a2
        rcases h2 with h2 | h2
        · exact absurd h4 (hno f k h2)
        · exact absurd h2 h3
    · intro e' j' h'
      apply h.other
      intro h1 f k h2 h3
      exact h' (by simp [h1]) f k (by simp [h2]) h3
  | some f =>
    dsimp only
    obtain ⟨k, hk1, hk2⟩ := h.some e j f hst
    have hfk := hL _ hk1
    have hfe := (mem_slots.1 hfk)
    have hfne : f ≠ e := by
      intro hh
      subst hh
      have := m1 f hfe.1 k hfe.2 j (mem_slots.1 he).2 hk2
      subst this
      exact hn hk1
    have hfind : (List.range 4).find? (fun k => decide (edgeKey vert f k = edgeKey vert e j)) = Option.some k := by
      rw [List.find?_range_eq_some]
      refine ⟨by simpa using (edgeKey_eq_iff vert _ _ _ _).2 hk2, List.mem_range.2 hfe.2, ?_⟩
      intro i hi
      have hne : ¬ edgeKey vert f i = edgeKey vert e j := by
        intro hh
        have := m1 f hfe.1 i (by omega) k hfe.2 (((edgeKey_eq_iff vert _ _ _ _).1 hh).trans hk2.symm)
        omega
      simpa using hne
    rw [hfind]
    dsimp only
    -- the only partner of (e, j) in L is (f, k)
    have huniq : ∀ f' k', (f', k') ∈ L → E vert f' k' = E vert e j → (f', k') = (f, k) := by
      intro f' k' h1 h2
      rcases m2 e f f' j k k' he hfk (hL _ h1) hk2.symm h2.symm with h3 | h3 | h3
      · injection h3 with a1 _
        exact absurd a1.symm hfne
      · rw [h3] at hn; exact absurd h1 hn
      · exact h3.symm
    have hval : ∀ e' j', setAdj (setAdj st.2 e j f) f k e e' j' =
        if (e', j') = (f, k) then Option.some e else if (e', j') = (e, j) then Option.some f else st.2 e' j' := by
      intro e' j'
      unfold setAdj
      simp only [Prod.mk.injEq]
    refine ⟨?_, ?_, ?_, ?_⟩
    · intro e' j' h' f' k' hf
      rw [hmem] at hf
      rcases hf with hf | hf
      · exact h.none e' j' h' f' k' hf
      · injection hf with h1 h2
        subst h1; subst h2
        intro hE
        dsimp only at h'
        have : edgeKey vert f' k' = edgeKey vert e' j' := (edgeKey_eq_iff vert _ _ _ _).2 hE
        rw [← this, hst] at h'
        cases h'
    · intro e' j' f' h'
      obtain ⟨k', a1, a2⟩ := h.some e' j' f' h'
      exact ⟨k', by simp [a1], a2⟩
    · intro e' j' f' k' h1 h2 h3 h4
      dsimp only
      rw [hval]
      rw [hmem] at h1 h2
      rcases h1 with h1 | h1
      · rcases h2 with h2 | h2
        · by_cases hx : (e', j') = (f, k)
          · -- then (f', k') also shares the edge with (e, j): impossible
            have : E vert f' k' = E vert e j := by
              injection hx with b1 b2
              subst b1; subst b2
              exact h4.trans hk2
            exact absurd ((huniq f' k' h2 this).trans hx.symm) h3
          · have hx2 : (e', j') ≠ (e, j) := by intro hh; rw [hh] at h1; exact hn h1
            rw [if_neg hx, if_neg hx2]
            exact h.pair e' j' f' k' h1 h2 h3 h4
        · injection h2 with a1 a2
          subst a1; subst a2
          rw [if_pos (huniq e' j' h1 h4.symm)]
      · injection h1 with a1 a2
        subst a1; subst a2
        rcases h2 with h2 | h2
        · have := huniq f' k' h2 h4
          injection this with b1 b2
          subst b1; subst b2
          rw [if_neg (fun hh => h3 hh.symm), if_pos rfl]
        · exact absurd h2 h3
    · intro e' j' h'
      dsimp only
      rw [hval]
      have hx1 : (e', j') ≠ (f, k) := by
        intro hx
        injection hx with b1 b2
        subst b1; subst b2
        exact h' (by simp [hk1]) e j (by simp) (fun hh => by injection hh with b1 _; exact hfne b1.symm) hk2.symm
      have hx2 : (e', j') ≠ (e, j) := by
        intro hx
        injection hx with b1 b2
        subst b1; subst b2
        exact h' (by simp) f k (by simp [hk1]) (fun hh => by injection hh with b1 _; exact hfne b1) hk2
      rw [if_neg hx1, if_neg hx2]
      apply h.other
      intro h1 f'' k'' h2 h3
      exact h' (by simp [h1]) f'' k'' (by simp [h2]) h3

theorem topo_inv (vert : Addr → Nat → Nat) (adj : Addr → Nat → Option Addr) (els : List Addr) (hnd : els.Nodup)
    (m1 : ∀ e ∈ els, ∀ j < 4, ∀ k < 4, E vert e j = E vert e k → j = k)
    (m2 : ∀ a b c i j k, (a, i) ∈ slots els → (b, j) ∈ slots els → (c, k) ∈ slots els →
      E vert a i = E vert b j → E vert a i = E vert c k → (a, i) = (b, j) ∨ (a, i) = (c, k) ∨ (b, j) = (c, k)) :
    TopoInv vert adj (slots els)
      ((slots els).foldl (fun st s => topoStep vert s.1 st s.2) ((fun _ => none), adj)) := by
  have key : ∀ (R L : List (Addr × Nat)) (st : TopoState), slots els = L ++ R → TopoInv vert adj L st →
      TopoInv vert adj (slots els) (R.foldl (fun st s => topoStep vert s.1 st s.2) st) := by
    intro R
    induction R with
    | nil => intro L st h hI; rw [List.append_nil] at h; rw [h]; exact hI
    | cons s R ih =>
      intro L st h hI
      rw [List.foldl_cons]
      refine ih (L ++ [s]) _ (by rw [h]; simp) ?_
      have hs := slots_nodup hnd
      rw [h, List.nodup_append] at hs
      exact topo_inv_step vert adj els m1 m2 L s.1 s.2 st (fun x hx => by rw [h]; simp [hx]) (by rw [h]; simp)
        (fun hx => hs.2.2 s hx s (by simp) rfl) hI
  refine key _ [] _ rfl ⟨?_, ?_, ?_, ?_⟩
  · intro _ _ _ _ _ h; simp at h
  · intro _ _ _ h; simp at h
  · intro _ _ _ _ h; simp at h
  · intro _ _ _; rfl

/-- What `updateTopology` does: partners in the list become neighbours, everything else is unchanged. -/
theorem updateTopology_spec (vert : Addr → Nat → Nat) (adj : Addr → Nat → Option Addr) (els : List Addr)
    (hnd : els.Nodup)
    (m1 : ∀ e ∈ els, ∀ j < 4, ∀ k < 4, E vert e j = E vert e k → j = k)
    (m2 : ∀ a b c i j k, a ∈ els → b ∈ els → c ∈ els → i < 4 → j < 4 → k < 4 →
      E vert a i = E vert b j → E vert a i = E vert c k → (a, i) = (b, j) ∨ (a, i) = (c, k) ∨ (b, j) = (c, k)) :
    (∀ e f j k, e ∈ els → f ∈ els → f ≠ e → j < 4 → k < 4 → E vert f k = E vert e j →
      updateTopology vert els adj e j = some f) ∧
    (∀ e j, (e ∈ els → j < 4 → ∀ f ∈ els, f ≠ e → ∀ k < 4, E vert f k ≠ E vert e j) →
      updateTopology vert els adj e j = adj e j) := by
  have h := topo_inv vert adj els hnd m1 (by
    intro a b c i j k h1 h2 h3
    rw [mem_slots] at h1 h2 h3
    exact m2 a b c i j k h1.1 h2.1 h3.1 h1.2 h2.2 h3.2)
  rw [updateTopology_slots]
  refine ⟨?_, ?_⟩
  · intro e f j k he hf hne hj hk hE
    exact h.pair e j f k (mem_slots.2 ⟨he, hj⟩) (mem_slots.2 ⟨hf, hk⟩)
      (fun hh => by injection hh with a _; exact hne a) hE
  · intro e j h'
    apply h.other
    intro h1 f k h2 h3
    rw [mem_slots] at h1 h2
    by_cases hfe : f = e
    · subst hfe
      intro hE
      exact h3 (by rw [m1 f h1.1 k h2.2 j h1.2 hE])
    · exact h' h1.1 h1.2 f h2.1 hfe k h2.2

end Mesh
end Bembel
