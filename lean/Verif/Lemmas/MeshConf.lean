import Verif.Lemmas.MeshTopo
import Mathlib.Tactic.Tauto
/-!
# Conforming meshes stay conforming under refinement (static part)
-/

set_option linter.unusedSectionVars false

namespace Bembel
namespace Mesh

open Basis

/-- A set of elements with vertex numbers below `N` is a conforming quadrilateral mesh. -/
structure Conf (vert : Addr → Nat → Nat) (S : Addr → Prop) (N : Nat) : Prop where
  lt : ∀ a, S a → ∀ j < 4, vert a j < N
  inj : ∀ a, S a → ∀ j < 4, ∀ k < 4, vert a j = vert a k → j = k
  two : ∀ a b c i j k, S a → S b → S c → i < 4 → j < 4 → k < 4 →
    E vert a i = E vert b j → E vert a i = E vert c k → (a, i) = (b, j) ∨ (a, i) = (c, k) ∨ (b, j) = (c, k)
  one : ∀ a b i i' j j', S a → S b → a ≠ b → i < 4 → i' < 4 → j < 4 → j' < 4 →
    E vert a i = E vert b j → E vert a i' = E vert b j' → i = i'

/-- The neighbour pointers of the elements of `S` are the elements sharing the edge. -/
def AdjOK (vert : Addr → Nat → Nat) (adj : Addr → Nat → Option Addr) (S : Addr → Prop) : Prop :=
  ∀ a, S a → ∀ j < 4, ∀ b, adj a j = some b ↔ S b ∧ b ≠ a ∧ ∃ k < 4, E vert b k = E vert a j

/-- midpoint of edge `i`, vertex number -/
def mid (vert : Addr → Nat → Nat) (a : Addr) (i : Nat) : Nat := vert (son a i) ((i + 1) % 4)

/-- centre -/
def ctr (vert : Addr → Nat → Nat) (a : Addr) : Nat := vert (son a 0) 2

/-- The vertices of the sons of the elements in `S` (all refined). -/
structure Refd (vert : Addr → Nat → Nat) (S : Addr → Prop) (N N' : Nat) : Prop where
  le : N ≤ N'
  v0 : ∀ a, S a → ∀ i < 4, vert (son a i) i = vert a i
  v2 : ∀ a, S a → ∀ i < 4, vert (son a i) ((i + 2) % 4) = ctr vert a
  v3 : ∀ a, S a → ∀ i < 4, vert (son a i) ((i + 3) % 4) = mid vert a ((i + 3) % 4)
  mid_rng : ∀ a, S a → ∀ i < 4, N ≤ mid vert a i ∧ mid vert a i < N'
  ctr_rng : ∀ a, S a → N ≤ ctr vert a ∧ ctr vert a < N'
  mid_iff : ∀ a b i j, S a → S b → i < 4 → j < 4 → (mid vert a i = mid vert b j ↔ E vert a i = E vert b j)
  ctr_inj : ∀ a b, S a → S b → ctr vert a = ctr vert b → a = b
  mid_ctr : ∀ a b i, S a → S b → i < 4 → mid vert a i ≠ ctr vert b
  surj : ∀ n, N ≤ n → n < N' → (∃ a i, S a ∧ i < 4 ∧ n = mid vert a i) ∨ ∃ a, S a ∧ n = ctr vert a

theorem lt4 {i : Nat} (h : i < 4) : i = 0 ∨ i = 1 ∨ i = 2 ∨ i = 3 := by omega

theorem E_inj_of {vert : Addr → Nat → Nat} {a : Addr}
    (inj : ∀ j < 4, ∀ k < 4, vert a j = vert a k → j = k) :
    ∀ j < 4, ∀ k < 4, E vert a j = E vert a k → j = k := by
  intro j hj k hk h
  unfold E elementEdge at h
  rw [Sym2.eq_iff] at h
  rcases h with ⟨h1, _⟩ | ⟨h1, h2⟩
  · exact inj j hj k hk h1
  · have e1 := inj j hj _ (Nat.mod_lt _ (by omega)) h1
    have e2 := inj _ (Nat.mod_lt _ (by omega)) k hk h2
    omega

/-- Edge `j` of son `i` is part of the boundary of the father. -/
def Outer (i j : Nat) : Prop := i = j ∨ i = (j + 1) % 4

instance (i j : Nat) : Decidable (Outer i j) := inferInstanceAs (Decidable (_ ∨ _))

/-- number of the midpoint at an inner edge -/
def innerE (i j : Nat) : Nat := if j = (i + 1) % 4 then i else (i + 3) % 4

section
variable {vert : Addr → Nat → Nat} {S : Addr → Prop} {N N' : Nat}

theorem edge_outer (r : Refd vert S N N') {a : Addr} (ha : S a) {i j : Nat} (hi : i < 4) (hj : j < 4)
    (h : Outer i j) : E vert (son a i) j = s(vert a i, mid vert a j) := by
  unfold E elementEdge
  rcases h with rfl | rfl
  · rw [r.v0 a ha i hi]; rfl
  · have e := r.v3 a ha _ hi
    rw [show ((j + 1) % 4 + 3) % 4 = j by omega] at e
    rw [e, r.v0 a ha _ hi, Sym2.eq_swap]

theorem edge_inner (r : Refd vert S N N') {a : Addr} (ha : S a) {i j : Nat} (hi : i < 4) (hj : j < 4)
    (h : ¬ Outer i j) : E vert (son a i) j = s(mid vert a (innerE i j), ctr vert a) := by
  unfold E elementEdge innerE
  unfold Outer at h
  by_cases h1 : j = (i + 1) % 4
  · rw [if_pos h1]
    subst h1
    have e := r.v2 a ha i hi
    rw [show ((i + 1) % 4 + 1) % 4 = (i + 2) % 4 by omega, e]
    rfl
  · rw [if_neg h1]
    obtain rfl : j = (i + 2) % 4 := by omega
    rw [r.v2 a ha i hi, show ((i + 2) % 4 + 1) % 4 = (i + 3) % 4 by omega, r.v3 a ha i hi, Sym2.eq_swap]

theorem innerE_lt (i j : Nat) (hi : i < 4) : innerE i j < 4 := by unfold innerE; split_ifs <;> omega

/-- When two edges of sons coincide. -/
theorem son_edge_eq (c : Conf vert S N) (r : Refd vert S N N') {a b : Addr} (ha : S a) (hb : S b)
    {i j k l : Nat} (hi : i < 4) (hj : j < 4) (hk : k < 4) (hl : l < 4) :
    E vert (son a i) j = E vert (son b k) l ↔
    (Outer i j ∧ Outer k l ∧ vert a i = vert b k ∧ E vert a j = E vert b l) ∨
    (¬ Outer i j ∧ ¬ Outer k l ∧ a = b ∧ innerE i j = innerE k l) := by
  have va := c.lt a ha i hi
  have vb := c.lt b hb k hk
  by_cases h1 : Outer i j
  · rw [edge_outer r ha hi hj h1]
    have ma := r.mid_rng a ha j hj
    by_cases h2 : Outer k l
    · rw [edge_outer r hb hk hl h2, Sym2.eq_iff]
      have mb := r.mid_rng b hb l hl
      have := r.mid_iff a b j l ha hb hj hl
      constructor
      · rintro (⟨e1, e2⟩ | ⟨e1, e2⟩)
        · exact Or.inl ⟨h1, h2, e1, this.1 e2⟩
        · omega
      · rintro (⟨_, _, e1, e2⟩ | ⟨h, _⟩)
        · exact Or.inl ⟨e1, this.2 e2⟩
        · exact absurd h1 h
    · rw [edge_inner r hb hk hl h2, Sym2.eq_iff]
      have mb := r.mid_rng b hb _ (innerE_lt k l hk)
      have cb := r.ctr_rng b hb
      constructor
      · rintro (⟨e1, e2⟩ | ⟨e1, e2⟩) <;> omega
      · rintro (⟨_, h, _⟩ | ⟨h, _⟩)
        · exact absurd h h2
        · exact absurd h1 h
  · rw [edge_inner r ha hi hj h1]
    have ma := r.mid_rng a ha _ (innerE_lt i j hi)
    have ca := r.ctr_rng a ha
    by_cases h2 : Outer k l
    · rw [edge_outer r hb hk hl h2, Sym2.eq_iff]
      constructor
      · rintro (⟨e1, e2⟩ | ⟨e1, e2⟩) <;> omega
      · rintro (⟨h, _, _⟩ | ⟨_, h, _⟩)
        · exact absurd h h1
        · exact absurd h2 h
    · rw [edge_inner r hb hk hl h2, Sym2.eq_iff]
      constructor
      · rintro (⟨e1, e2⟩ | ⟨e1, e2⟩)
        · obtain rfl := r.ctr_inj a b ha hb e2
          refine Or.inr ⟨h1, h2, rfl, ?_⟩
          exact E_inj_of (c.inj a ha) _ (innerE_lt i j hi) _ (innerE_lt k l hk)
            ((r.mid_iff a a _ _ ha ha (innerE_lt i j hi) (innerE_lt k l hk)).1 e1)
        · exact absurd e1 (r.mid_ctr a b _ ha hb (innerE_lt i j hi))
      · rintro (⟨h, _, _⟩ | ⟨_, _, h, h'⟩)
        · exact absurd h h1
        · subst h; rw [h']; exact Or.inl ⟨rfl, rfl⟩

theorem inner_slot {i j e : Nat} (hi : i < 4) (hj : j < 4) (h : ¬ Outer i j) (he : innerE i j = e) :
    (i = e ∧ j = (e + 1) % 4) ∨ (i = (e + 1) % 4 ∧ j = (e + 3) % 4) := by
  subst he
  unfold Outer at h
  unfold innerE
  split_ifs with h1 <;> omega

/-- sons of a set of elements -/
def SonsOf (S : Addr → Prop) (b : Addr) : Prop := ∃ a, S a ∧ ∃ i < 4, b = son a i

/-- Refinement preserves conformity. -/
theorem conf_sons (c : Conf vert S N) (r : Refd vert S N N') : Conf vert (SonsOf S) N' := by
  refine ⟨?_, ?_, ?_, ?_⟩
  · rintro _ ⟨a, ha, i, hi, rfl⟩ j hj
    have : j = i ∨ j = (i + 1) % 4 ∨ j = (i + 2) % 4 ∨ j = (i + 3) % 4 := by omega
    rcases this with rfl | rfl | rfl | rfl
    · rw [r.v0 a ha _ hi]
      exact lt_of_lt_of_le (c.lt a ha _ hi) r.le
    · exact (r.mid_rng a ha i hi).2
    · rw [r.v2 a ha _ hi]
      exact (r.ctr_rng a ha).2
    · rw [r.v3 a ha _ hi]
      exact (r.mid_rng a ha _ (by omega)).2
  · rintro _ ⟨a, ha, i, hi, rfl⟩ j hj k hk h
    have h0 := c.lt a ha i hi
    have h1 := r.mid_rng a ha i hi
    have h2 := r.ctr_rng a ha
    have h3 := r.mid_rng a ha ((i + 3) % 4) (by omega)
    have h4 := r.mid_ctr a a i ha ha hi
    have h5 := r.mid_ctr a a ((i + 3) % 4) ha ha (by omega)
    have h6 : mid vert a i ≠ mid vert a ((i + 3) % 4) := by
      intro hh
      have := E_inj_of (c.inj a ha) _ hi _ (by omega) ((r.mid_iff a a _ _ ha ha hi (by omega)).1 hh)
      omega
    have v0 := r.v0 a ha i hi
    have v1 : vert (son a i) ((i + 1) % 4) = mid vert a i := rfl
    have v2 := r.v2 a ha i hi
    have v3 := r.v3 a ha i hi
    have hj' : j = i ∨ j = (i + 1) % 4 ∨ j = (i + 2) % 4 ∨ j = (i + 3) % 4 := by omega
    have hk' : k = i ∨ k = (i + 1) % 4 ∨ k = (i + 2) % 4 ∨ k = (i + 3) % 4 := by omega
    rcases hj' with rfl | rfl | rfl | rfl <;> rcases hk' with rfl | rfl | rfl | rfl <;>
      simp only [v0, v1, v2, v3] at h <;> first | rfl | (exfalso; omega)
  · rintro _ _ _ j l n ⟨a, ha, i, hi, rfl⟩ ⟨b, hb, k, hk, rfl⟩ ⟨d, hd, m, hm, rfl⟩ hj hl hn h1 h2
    rw [son_edge_eq c r ha hb hi hj hk hl] at h1
    rw [son_edge_eq c r ha hd hi hj hm hn] at h2
    rcases h1 with ⟨o1, o2, x1, x2⟩ | ⟨o1, o2, x1, x2⟩
    · rcases h2 with ⟨_, p2, y1, y2⟩ | ⟨p1, _⟩
      · rcases c.two a b d j l n ha hb hd hj hl hn x2 y2 with h | h | h
        · injection h with e1 e2
          subst e1; subst e2
          rw [c.inj a ha i hi k hk x1]; exact Or.inl rfl
        · injection h with e1 e2
          subst e1; subst e2
          rw [c.inj a ha i hi m hm y1]; exact Or.inr (Or.inl rfl)
        · injection h with e1 e2
          subst e1; subst e2
          rw [c.inj b hb k hk m hm (x1.symm.trans y1)]; exact Or.inr (Or.inr rfl)
      · exact absurd o1 p1
    · rcases h2 with ⟨p1, _⟩ | ⟨_, p2, y1, y2⟩
      · exact absurd p1 o1
      · subst x1; subst y1
        have s1 := inner_slot hi hj o1 rfl
        have s2 := inner_slot hk hl o2 x2.symm
        have s3 := inner_slot hm hn p2 y2.symm
        rcases s1 with ⟨e1, e2⟩ | ⟨e1, e2⟩ <;> rcases s2 with ⟨f1, f2⟩ | ⟨f1, f2⟩ <;>
          rcases s3 with ⟨g1, g2⟩ | ⟨g1, g2⟩ <;>
          first
          | (left; rw [show i = k by omega, show j = l by omega]; done)
          | (right; left; rw [show i = m by omega, show j = n by omega]; done)
          | (right; right; rw [show k = m by omega, show l = n by omega]; done)
  · rintro _ _ j j' l l' ⟨a, ha, i, hi, rfl⟩ ⟨b, hb, k, hk, rfl⟩ hne hj hj' hl hl' h1 h2
    rw [son_edge_eq c r ha hb hi hj hk hl] at h1
    rw [son_edge_eq c r ha hb hi hj' hk hl'] at h2
    rcases h1 with ⟨o1, o2, x1, x2⟩ | ⟨o1, o2, x1, x2⟩
    · by_cases hab : a = b
      · subst hab
        rw [c.inj a ha i hi k hk x1] at hne
        exact absurd rfl hne
      · rcases h2 with ⟨_, p2, y1, y2⟩ | ⟨p1, _, p3, _⟩
        · exact c.one a b j j' l l' ha hb hab hj hj' hl hl' x2 y2
        · exact absurd p3 hab
    · subst x1
      rcases h2 with ⟨_, p2, y1, y2⟩ | ⟨p1, p2, p3, p4⟩
      · rw [c.inj a ha i hi k hk y1] at hne
        exact absurd rfl hne
      · have hik : i ≠ k := fun hh => hne (by rw [hh])
        have s1 := inner_slot hi hj o1 rfl
        have s2 := inner_slot hk hl o2 x2.symm
        have s3 := inner_slot hi hj' p1 rfl
        have s4 := inner_slot hk hl' p2 p4.symm
        have b1 := innerE_lt i j hi
        have b2 := innerE_lt i j' hi
        omega

end

end Mesh
end Bembel
