import Verif.Props.MeshSurface
/-!
# Property theorem C22: the recorded neighbours are the geometric neighbours
-/

set_option linter.unusedSectionVars false

namespace Bembel.Props

open Bembel.Basis Bembel.Mesh

section
variable {vert : Addr → Nat → Nat} {P : Nat}

theorem grid_sons {l N N' : Nat} (c : Conf vert (· ∈ leaves P l) N) (r : Refd vert (· ∈ leaves P l) N N')
    (ih : ∀ a b i j, a ∈ leaves P l → b ∈ leaves P l → a.1 = b.1 → i < 4 → j < 4 →
      (vert a i = vert b j ↔ gridPt a i = gridPt b j)) :
    ∀ a b i j, a ∈ leaves P (l + 1) → b ∈ leaves P (l + 1) → a.1 = b.1 → i < 4 → j < 4 →
      (vert a i = vert b j ↔ gridPt a i = gridPt b j) := by
  have kinds : ∀ a, a ∈ leaves P l → ∀ i < 4, ∀ j < 4,
      (vert (son a i) j = vert a i ∧ gridPt (son a i) j = (2 * (gridPt a i).1, 2 * (gridPt a i).2)) ∨
      (∃ e < 4, vert (son a i) j = mid vert a e ∧ gridPt (son a i) j =
        ((gridPt a e).1 + (gridPt a ((e + 1) % 4)).1, (gridPt a e).2 + (gridPt a ((e + 1) % 4)).2)) ∨
      (vert (son a i) j = ctr vert a ∧ gridPt (son a i) j = (2 * posX a.2 + 1, 2 * posY a.2 + 1)) := by
    intro a ha i hi j hj
    have hj' : j = i ∨ j = (i + 1) % 4 ∨ j = (i + 2) % 4 ∨ j = (i + 3) % 4 := by omega
    rcases hj' with h | h | h | h
    · refine Or.inl ⟨by rw [h]; exact r.v0 a ha _ hi, ?_⟩
      subst h
      rcases lt4 hi with rfl | rfl | rfl | rfl <;> simp [gridPt, son, posX, posY, cornerX, cornerY] <;> omega
    · refine Or.inr (Or.inl ⟨i, hi, by rw [h]; rfl, ?_⟩)
      subst h
      rcases lt4 hi with rfl | rfl | rfl | rfl <;> simp [gridPt, son, posX, posY, cornerX, cornerY] <;> omega
    · refine Or.inr (Or.inr ⟨by rw [h]; exact r.v2 a ha i hi, ?_⟩)
      subst h
      rcases lt4 hi with rfl | rfl | rfl | rfl <;> simp [gridPt, son, posX, posY, cornerX, cornerY]
    · refine Or.inr (Or.inl ⟨(i + 3) % 4, by omega, by rw [h]; exact r.v3 a ha i hi, ?_⟩)
      subst h
      rcases lt4 hi with rfl | rfl | rfl | rfl <;> simp [gridPt, son, posX, posY, cornerX, cornerY] <;> omega
  have midpar : ∀ a e, e < 4 → ((gridPt a e).1 + (gridPt a ((e + 1) % 4)).1 + ((gridPt a e).2 + (gridPt a ((e + 1) % 4)).2)) % 2 = 1 := by
    intro a e he
    rcases lt4 he with rfl | rfl | rfl | rfl <;> simp [gridPt, cornerX, cornerY] <;> omega
  intro x y j k hx hy hxy hj hk
  obtain ⟨a, ha, i, hi, rfl⟩ := mem_leaves_succ.1 hx
  obtain ⟨b, hb, m, hm, rfl⟩ := mem_leaves_succ.1 hy
  have hab : a.1 = b.1 := hxy
  rcases kinds a ha i hi j hj with ⟨h1, h2⟩ | ⟨e, he, h1, h2⟩ | ⟨h1, h2⟩ <;>
    rcases kinds b hb m hm k hk with ⟨h3, h4⟩ | ⟨f, hf, h3, h4⟩ | ⟨h3, h4⟩ <;> rw [h1, h3, h2, h4]
  · rw [ih a b i m ha hb hab hi hm, Prod.ext_iff, Prod.mk.injEq]
    omega
  · have := c.lt a ha i hi; have := r.mid_rng b hb f hf; have := midpar b f hf
    rw [Prod.mk.injEq]; omega
  · have := c.lt a ha i hi; have := r.ctr_rng b hb
    rw [Prod.mk.injEq]; omega
  · have := c.lt b hb m hm; have := r.mid_rng a ha e he; have := midpar a e he
    rw [Prod.mk.injEq]; omega
  · rw [r.mid_iff a b e f ha hb he hf]
    unfold E elementEdge
    have e1 : (e + 1) % 4 < 4 := Nat.mod_lt _ (by omega)
    have f1 : (f + 1) % 4 < 4 := Nat.mod_lt _ (by omega)
    rw [Sym2.eq_iff, ih a b e f ha hb hab he hf, ih a b _ _ ha hb hab e1 f1, ih a b e _ ha hb hab he f1,
      ih a b _ f ha hb hab e1 hf]
    rcases lt4 he with rfl | rfl | rfl | rfl <;> rcases lt4 hf with rfl | rfl | rfl | rfl <;>
      simp [gridPt, cornerX, cornerY] <;> omega
  · have := r.mid_ctr a b e ha hb he; have := midpar a e he
    rw [Prod.mk.injEq]; constructor
    · intro h; exact absurd h (by assumption)
    · omega
  · have := c.lt b hb m hm; have := r.ctr_rng a ha
    rw [Prod.mk.injEq]; omega
  · have := r.mid_ctr b a f hb ha hf; have := midpar b f hf
    rw [Prod.mk.injEq]; constructor
    · intro h; exact absurd h.symm (by assumption)
    · omega
  · constructor
    · intro h; rw [r.ctr_inj a b ha hb h]
    · intro h
      rw [Prod.mk.injEq] at h
      rw [show a = b from Prod.ext hab (pos_inj _ _ (by rw [(mem_leaves.1 ha).2.1, (mem_leaves.1 hb).2.1]) (mem_leaves.1 ha).2.2
        (mem_leaves.1 hb).2.2 (by omega) (by omega))]

theorem on_son (l i j : Nat) (a : Addr) (hi : i < 4) (hj : j < 4) :
    OnEdge (l + 1) j (son a i) ↔ Outer i j ∧ OnEdge l j a := by
  unfold OnEdge Outer
  rcases lt4 hi with rfl | rfl | rfl | rfl <;> rcases lt4 hj with rfl | rfl | rfl | rfl <;>
    simp [son, posX, posY, pow_succ] <;> omega

theorem along_son (l j : Nat) (a : Addr) (hj : j < 4) (hx : posX a.2 < 2 ^ l) (hy : posY a.2 < 2 ^ l) :
    alongEdge (l + 1) j (son a j) = 2 * alongEdge l j a ∧
    alongEdge (l + 1) j (son a ((j + 1) % 4)) = 2 * alongEdge l j a + 1 ∧ alongEdge l j a < 2 ^ l := by
  unfold alongEdge
  have : 0 < 2 ^ l := by positivity
  rcases lt4 hj with rfl | rfl | rfl | rfl <;> simp [son, posX, posY, pow_succ] <;> omega

section
variable {S : Addr → Prop} {N N' : Nat}

/-- same direction -/
def SameDir (vert : Addr → Nat → Nat) (a b : Addr) (i k : Nat) : Prop :=
  vert a i = vert b k ∧ vert a ((i + 1) % 4) = vert b ((k + 1) % 4)

/-- opposite direction -/
def OppDir (vert : Addr → Nat → Nat) (a b : Addr) (i k : Nat) : Prop :=
  vert a i = vert b ((k + 1) % 4) ∧ vert a ((i + 1) % 4) = vert b k

theorem vfirst (r : Refd vert S N N') (d : Addr) (hd : S d) (e : Nat) (he : e < 4) :
    vert (son d e) e = vert d e ∧ vert (son d e) ((e + 1) % 4) = mid vert d e := ⟨r.v0 d hd e he, rfl⟩

theorem vsecond (r : Refd vert S N N') (d : Addr) (hd : S d) (e : Nat) (he : e < 4) :
    vert (son d ((e + 1) % 4)) e = mid vert d e ∧
        vert (son d ((e + 1) % 4)) ((e + 1) % 4) = vert d ((e + 1) % 4) := by
  have := r.v3 d hd ((e + 1) % 4) (Nat.mod_lt _ (by omega))
  rw [show ((e + 1) % 4 + 3) % 4 = e by omega] at this
  exact ⟨this, r.v0 d hd _ (Nat.mod_lt _ (by omega))⟩

theorem E_iff (a b : Addr) (i k : Nat) : E vert a i = E vert b k ↔ SameDir vert a b i k ∨ OppDir vert a b i k := by
  unfold E elementEdge SameDir OppDir
  rw [Sym2.eq_iff]

theorem son_dirs (c : Conf vert S N) (r : Refd vert S N N') {a b : Addr} (ha : S a) (hb : S b) (hab : a ≠ b)
    {i j k l : Nat} (hi : i < 4) (hj : j < 4) (hk : k < 4) (hl : l < 4) :
    (SameDir vert (son a i) (son b k) j l ↔ Outer i j ∧ Outer k l ∧ (i = j ↔ k = l) ∧ SameDir vert a b j l) ∧
    (OppDir vert (son a i) (son b k) j l ↔ Outer i j ∧ Outer k l ∧ (i = j ↔ k ≠ l) ∧ OppDir vert a b j l) := by
  have hE := son_edge_eq c r ha hb hi hj hk hl
  by_cases ho : Outer i j ∧ Outer k l
  swap
  · have hno : ¬ E vert (son a i) j = E vert (son b k) l := by
      rw [hE]
      rintro (⟨h1, h2, _⟩ | ⟨_, _, h, _⟩)
      · exact ho ⟨h1, h2⟩
      · exact hab h
    rw [E_iff] at hno
    tauto
  · obtain ⟨o1, o2⟩ := ho
    have hl1 : (l + 1) % 4 < 4 := Nat.mod_lt _ (by omega)
    have hj1 : (j + 1) % 4 < 4 := Nat.mod_lt _ (by omega)
    have nl : l ≠ (l + 1) % 4 := by omega
    have nj : j ≠ (j + 1) % 4 := by omega
    have va := c.lt a ha j hj
    have va1 := c.lt a ha _ hj1
    have vb := c.lt b hb l hl
    have vb1 := c.lt b hb _ hl1
    have ma := r.mid_rng a ha j hj
    have mb := r.mid_rng b hb l hl
    have mi := r.mid_iff a b j l ha hb hj hl
    rw [E_iff] at mi
    have inj := c.inj b hb _ hl _ hl1
    have f1 := vfirst r a ha j hj
    have f2 := vsecond r a ha j hj
    have f3 := vfirst r b hb l hl
    have f4 := vsecond r b hb l hl
    unfold SameDir OppDir at *
    have hB : vert b l ≠ vert b ((l + 1) % 4) := fun h => nl (inj h)
    rcases o1 with rfl | rfl <;> rcases o2 with rfl | rfl
    · rw [f1.1, f1.2, f3.1, f3.2]
      simp only [Outer, true_or, true_and, ne_eq, not_true_eq_false, iff_false, false_and, iff_self]
      refine ⟨⟨?_, fun h => ⟨h.1, mi.2 (Or.inl h)⟩⟩, by omega⟩
      rintro ⟨h1, h2⟩
      rcases mi.1 h2 with h | ⟨h, _⟩
      · exact h
      · exact absurd (h1.symm.trans h) hB
    · rw [f1.1, f1.2, f4.1, f4.2]
      simp only [Outer, true_or, or_true, true_and, ne_eq, true_iff, nl.symm, not_false_eq_true, false_and]
      refine ⟨⟨fun h => by omega, False.elim⟩, ⟨?_, fun h => ⟨h.1, mi.2 (Or.inr h)⟩⟩⟩
      rintro ⟨h1, h2⟩
      rcases mi.1 h2 with ⟨h, _⟩ | h
      · exact absurd (h.symm.trans h1) hB
      · exact h
    · rw [f2.1, f2.2, f3.1, f3.2]
      simp only [Outer, true_or, or_true, true_and, ne_eq, iff_true, nj.symm, not_true_eq_false, iff_self, false_and]
      refine ⟨⟨fun h => by omega, False.elim⟩, ⟨?_, fun h => ⟨mi.2 (Or.inr h), h.2⟩⟩⟩
      rintro ⟨h2, h1⟩
      rcases mi.1 h2 with ⟨_, h⟩ | h
      · exact absurd (h1.symm.trans h) hB
      · exact h
    · rw [f2.1, f2.2, f4.1, f4.2]
      simp only [Outer, or_true, true_and, ne_eq, nj.symm, nl.symm, not_false_eq_true, iff_true, iff_self, false_and]
      refine ⟨⟨?_, fun h => ⟨mi.2 (Or.inl h), h.2⟩⟩, ⟨fun h => by omega, False.elim⟩⟩
      rintro ⟨h2, h1⟩
      rcases mi.1 h2 with h | ⟨_, h⟩
      · exact h
      · exact absurd (h.symm.trans h1) hB

end

/-- The interface invariant on one level. -/
def Iface {V : Type} (corner : Nat → Nat → V) (vert : Addr → Nat → Nat) (P l : Nat) : Prop :=
  ∀ a b i k, a ∈ leaves P l → b ∈ leaves P l → a.1 ≠ b.1 → i < 4 → k < 4 →
    (SameDir vert a b i k ↔ OnEdge l i a ∧ OnEdge l k b ∧ corner a.1 i = corner b.1 k ∧
      corner a.1 ((i + 1) % 4) = corner b.1 ((k + 1) % 4) ∧ alongEdge l i a = alongEdge l k b) ∧
    (OppDir vert a b i k ↔ OnEdge l i a ∧ OnEdge l k b ∧ corner a.1 i = corner b.1 ((k + 1) % 4) ∧
      corner a.1 ((i + 1) % 4) = corner b.1 k ∧ alongEdge l i a + alongEdge l k b + 1 = 2 ^ l)

theorem iface_sons {V : Type} (corner : Nat → Nat → V) {l N N' : Nat} (c : Conf vert (· ∈ leaves P l) N)
    (r : Refd vert (· ∈ leaves P l) N N') (ih : Iface corner vert P l) : Iface corner vert P (l + 1) := by
  intro x y j m hx hy hxy hj hm
  obtain ⟨a, ha, i, hi, rfl⟩ := mem_leaves_succ.1 hx
  obtain ⟨b, hb, k, hk, rfl⟩ := mem_leaves_succ.1 hy
  have hab : a ≠ b := fun h => hxy (by rw [h]; rfl)
  obtain ⟨d1, d2⟩ := son_dirs c r ha hb hab hi hj hk hm
  obtain ⟨i1, i2⟩ := ih a b j m ha hb hxy hj hm
  have pa := pos_lt a.2
  have pb := pos_lt b.2
  rw [(mem_leaves.1 ha).2.1] at pa
  rw [(mem_leaves.1 hb).2.1] at pb
  obtain ⟨s1, s2, s3⟩ := along_son l j a hj pa.1 pa.2
  obtain ⟨t1, t2, t3⟩ := along_son l m b hm pb.1 pb.2
  rw [d1, d2, i1, i2, on_son l i j a hi hj, on_son l k m b hk hm]
  have e1 : (son a i).1 = a.1 := rfl
  have e2 : (son b k).1 = b.1 := rfl
  rw [e1, e2, pow_succ]
  by_cases o1 : Outer i j
  swap
  · simp only [o1, false_and, iff_self, true_and]
  by_cases o2 : Outer k m
  swap
  · simp only [o2, false_and, and_false, iff_self, true_and]
  have nj : (j + 1) % 4 ≠ j := by omega
  have nm : (m + 1) % 4 ≠ m := by omega
  simp only [o1, o2, true_and]
  rcases o1 with rfl | rfl <;> rcases o2 with rfl | rfl
  · rw [s1, t1]
    simp only [true_and, iff_self, ne_eq, not_true_eq_false, iff_false, false_and]
    constructor <;> constructor
    · rintro ⟨h1, h2, h3, h4, h5⟩; exact ⟨h1, h2, h3, h4, by omega⟩
    · rintro ⟨h1, h2, h3, h4, h5⟩; exact ⟨h1, h2, h3, h4, by omega⟩
    · exact False.elim
    · rintro ⟨h1, h2, h3, h4, h5⟩; omega
  · rw [s1, t2]
    simp only [nm, true_and, true_iff, ne_eq, not_false_eq_true, false_and]
    constructor <;> constructor
    · exact False.elim
    · rintro ⟨h1, h2, h3, h4, h5⟩; omega
    · rintro ⟨h1, h2, h3, h4, h5⟩; exact ⟨h1, h2, h3, h4, by omega⟩
    · rintro ⟨h1, h2, h3, h4, h5⟩; exact ⟨h1, h2, h3, h4, by omega⟩
  · rw [s2, t1]
    simp only [nj, true_and, iff_true, ne_eq, not_true_eq_false, iff_self, false_and]
    constructor <;> constructor
    · exact False.elim
    · rintro ⟨h1, h2, h3, h4, h5⟩; omega
    · rintro ⟨h1, h2, h3, h4, h5⟩; exact ⟨h1, h2, h3, h4, by omega⟩
    · rintro ⟨h1, h2, h3, h4, h5⟩; exact ⟨h1, h2, h3, h4, by omega⟩
  · rw [s2, t2]
    simp only [nj, nm, true_and, iff_self, ne_eq, not_false_eq_true, iff_true, false_and]
    constructor <;> constructor
    · rintro ⟨h1, h2, h3, h4, h5⟩; exact ⟨h1, h2, h3, h4, by omega⟩
    · rintro ⟨h1, h2, h3, h4, h5⟩; exact ⟨h1, h2, h3, h4, by omega⟩
    · exact False.elim
    · rintro ⟨h1, h2, h3, h4, h5⟩; omega

end

section
variable {K : Type} [Field K] [LinearOrder K] [IsStrictOrderedRing K]
  {V : Type} (near : V → V → Bool) (corner : Nat → Nat → V)

theorem grid_levels {t : Mesh.Tree K} {N : Nat → Nat} {P M : Nat}
    (h1 : ∀ j < M, LevelOK t.vert t.adj P j (N j) (N (j + 1)))
    (hv : ∀ i j i' j', i < P → i' < P → j < 4 → j' < 4 →
      (t.vert (i, []) j = t.vert (i', []) j' ↔ corner i j = corner i' j'))
    (hd : ∀ p < P, ∀ i < 4, ∀ j < 4, corner p i = corner p j → i = j) : ∀ l ≤ M,
    (∀ a b i j, a ∈ leaves P l → b ∈ leaves P l → a.1 = b.1 → i < 4 → j < 4 →
      (t.vert a i = t.vert b j ↔ gridPt a i = gridPt b j)) ∧ Iface corner t.vert P l := by
  intro l
  induction l with
  | zero =>
    intro _
    constructor
    · intro a b i j ha hb hab hi hj
      obtain ⟨p, hp, rfl⟩ := mem_leaves_zero.1 ha
      obtain ⟨q, hq, rfl⟩ := mem_leaves_zero.1 hb
      obtain rfl : p = q := hab
      rw [hv p i p j hp hp hi hj]
      constructor
      · intro h; rw [hd p hp i hi j hj h]
      · intro h
        have : i = j := by
          rcases lt4 hi with rfl | rfl | rfl | rfl <;> rcases lt4 hj with rfl | rfl | rfl | rfl <;>
            simp [gridPt, posX, posY, cornerX, cornerY] at h ⊢
        rw [this]
    · intro a b i k ha hb hab hi hk
      obtain ⟨p, hp, rfl⟩ := mem_leaves_zero.1 ha
      obtain ⟨q, hq, rfl⟩ := mem_leaves_zero.1 hb
      have m4 : ∀ i, (i + 1) % 4 < 4 := fun i => Nat.mod_lt _ (by omega)
      have on : ∀ p, ∀ i < 4, OnEdge 0 i (p, []) := by
        intro p i hi; unfold OnEdge
        rcases lt4 hi with rfl | rfl | rfl | rfl <;> simp [posX, posY]
      have al : ∀ p i, alongEdge 0 i (p, []) = 0 := by
        intro p i; unfold alongEdge; simp [posX, posY]
      unfold SameDir OppDir
      rw [hv p i q k hp hq hi hk, hv p _ q _ hp hq (m4 i) (m4 k), hv p i q _ hp hq hi (m4 k), hv p _ q k hp hq (m4 i) hk,
        al, al]
      have o1 := on p i hi
      have o2 := on q k hk
      simp [o1, o2]
  | succ l ih =>
    intro hl
    obtain ⟨ih1, ih2⟩ := ih (by omega)
    have o := h1 l (by omega)
    exact ⟨grid_sons o.conf o.refd ih1, iface_sons corner o.conf o.refd ih2⟩

/-- C22, grid: within one patch, two element corners of the same level have the same vertex number exactly if they
are the same point of the grid. -/
theorem C22_grid (P M : Nat) (hP : 0 < P) (hc : ConformingPatches near corner P) :
    ∃ t : Mesh.Tree K, initElementTree near corner P M = some t ∧ ∀ l ≤ M, ∀ a b, IsNode P l a → IsNode P l b →
      a.1 = b.1 → ∀ i < 4, ∀ j < 4, (t.vert a i = t.vert b j ↔ gridPt a i = gridPt b j) := by
  obtain ⟨t, N, h1, h2, h3, h4, h5, h6, h7⟩ := topo_facts (K := K) near corner P M hP hc
  refine ⟨t, h1, ?_⟩
  intro l hl a b ha hb hab i hi j hj
  exact (grid_levels corner h3 h6 hc.distinct l hl).1 a b i j (mem_leaves.2 ha) (mem_leaves.2 hb) hab hi hj

/-- C22, adjacency: on every level the neighbour recorded across edge `i` of an element is exactly the cell on the
other side of this edge: the next grid cell of the same patch, or, at a patch edge, the cell of the adjacent patch
that faces it. -/
theorem C22_adjacency (P M : Nat) (hP : 0 < P) (hc : ConformingPatches near corner P) :
    ∃ t : Mesh.Tree K, initElementTree near corner P M = some t ∧ ∀ l ≤ M, ∀ a, IsNode P l a → ∀ i < 4, ∀ b,
      (t.adj a i = some b ↔ IsNode P l b ∧
        ((b.1 = a.1 ∧ GridNeighbour i a b) ∨ (b.1 ≠ a.1 ∧ ∃ k < 4, InterfaceNeighbour corner l i k a b))) := by
  obtain ⟨t, N, h1, h2, h3, h4, h5, h6, h7⟩ := topo_facts (K := K) near corner P M hP hc
  refine ⟨t, h1, ?_⟩
  intro l hl a ha i hi b
  obtain ⟨c, A⟩ := level_conf h3 h4 h5 l hl
  obtain ⟨G, I⟩ := grid_levels corner h3 h6 hc.distinct l hl
  have ha' : a ∈ leaves P l := mem_leaves.2 ha
  rw [A a ha' i hi b]
  refine and_congr ⟨fun h => mem_leaves.1 h, fun h => mem_leaves.2 h⟩ Iff.rfl |>.trans ?_
  refine and_congr_right fun hb => ?_
  have hb' : b ∈ leaves P l := mem_leaves.2 hb
  have m4 : ∀ i, (i + 1) % 4 < 4 := fun i => Nat.mod_lt _ (by omega)
  by_cases hp : b.1 = a.1
  · have hEq : ∀ k < 4, (E t.vert b k = E t.vert a i ↔
        (gridPt b k = gridPt a i ∧ gridPt b ((k + 1) % 4) = gridPt a ((i + 1) % 4)) ∨
        (gridPt b k = gridPt a ((i + 1) % 4) ∧ gridPt b ((k + 1) % 4) = gridPt a i)) := by
      intro k hk
      rw [E_iff]
      unfold SameDir OppDir
      rw [G b a k i hb' ha' hp hk hi, G b a _ _ hb' ha' hp (m4 k) (m4 i), G b a k _ hb' ha' hp hk (m4 i),
        G b a _ i hb' ha' hp (m4 k) hi]
    have hne : b ≠ a ↔ ¬ (posX b.2 = posX a.2 ∧ posY b.2 = posY a.2) := by
      rw [not_iff_not]
      constructor
      · rintro rfl; exact ⟨rfl, rfl⟩
      · rintro ⟨e1, e2⟩
        exact Prod.ext hp (pos_inj _ _ (by rw [ha.2.1, hb.2.1]) hb.2.2 ha.2.2 e1 e2)
    have hex : (∃ k < 4, E t.vert b k = E t.vert a i) ↔ E t.vert b 0 = E t.vert a i ∨ E t.vert b 1 = E t.vert a i ∨
        E t.vert b 2 = E t.vert a i ∨ E t.vert b 3 = E t.vert a i := by
      constructor
      · rintro ⟨k, hk, h⟩
        rcases lt4 hk with rfl | rfl | rfl | rfl <;> simp [h]
      · rintro (h | h | h | h)
        exacts [⟨0, by omega, h⟩, ⟨1, by omega, h⟩, ⟨2, by omega, h⟩, ⟨3, by omega, h⟩]
    show (b ≠ a ∧ ∃ k < 4, E t.vert b k = E t.vert a i) ↔ _
    rw [hex, hEq 0 (by omega), hEq 1 (by omega), hEq 2 (by omega), hEq 3 (by omega), hne]
    simp only [hp, true_and, ne_eq, not_true_eq_false, false_and, or_false]
    unfold GridNeighbour gridPt cornerX cornerY
    rcases lt4 hi with rfl | rfl | rfl | rfl <;> simp <;> omega
  · have hba : b ≠ a := fun h => hp (by rw [h])
    show (b ≠ a ∧ ∃ k < 4, E t.vert b k = E t.vert a i) ↔ _
    simp only [hp, hba, false_and, false_or, ne_eq, not_false_eq_true, true_and]
    constructor
    · rintro ⟨k, hk, h⟩
      refine ⟨k, hk, ?_⟩
      obtain ⟨i1, i2⟩ := I a b i k ha' hb' (fun h => hp h.symm) hi hk
      rcases (E_iff a b i k).1 h.symm with h | h
      · obtain ⟨x1, x2, x3, x4, x5⟩ := i1.1 h
        exact ⟨x1, x2, Or.inl ⟨x3, x4, x5⟩⟩
      · obtain ⟨x1, x2, x3, x4, x5⟩ := i2.1 h
        exact ⟨x1, x2, Or.inr ⟨x3, x4, x5⟩⟩
    · rintro ⟨k, hk, x1, x2, h⟩
      refine ⟨k, hk, ?_⟩
      obtain ⟨i1, i2⟩ := I a b i k ha' hb' (fun h => hp h.symm) hi hk
      refine ((E_iff a b i k).2 ?_).symm
      rcases h with ⟨x3, x4, x5⟩ | ⟨x3, x4, x5⟩
      · exact Or.inl (i1.2 ⟨x1, x2, x3, x4, x5⟩)
      · exact Or.inr (i2.2 ⟨x1, x2, x3, x4, x5⟩)

/-! ## C58: boundary labels -/

/-- Number of edges `j < 4` with a property. -/
def edgeCount (p : Nat → Prop) [DecidablePred p] : Nat := ((List.range 4).filter p).length

theorem edgeCount_sum (p : Nat → Prop) [DecidablePred p] :
    (0 : Int) + (if p 0 then 1 else 0) + (if p 1 then 1 else 0) + (if p 2 then 1 else 0) + (if p 3 then 1 else 0) =
      edgeCount p := by
  unfold edgeCount
  have r4 : List.range 4 = [0, 1, 2, 3] := rfl
  rw [r4]
  simp only [List.filter_cons, List.filter_nil]
  by_cases h0 : p 0 <;> by_cases h1 : p 1 <;> by_cases h2 : p 2 <;> by_cases h3 : p 3 <;> simp [h0, h1, h2, h3]

open scoped Classical in
theorem labels_eq (t : Mesh.Tree K) (a : Addr) :
    (forLoop 4 (labelStep t a) (0, false)).1 =
      if ∃ j < 4, t.adj a j = none then -1
      else (edgeCount fun j => ∃ b, t.adj a j = some b ∧ t.patch b ≠ t.patch a : Int) := by
  have step : ∀ x j, labelStep t a (x, true) j = (x, true) := fun _ _ => rfl
  have step0 : ∀ x j, t.adj a j = none → labelStep t a (x, false) j = (-1, true) := by
    intro x j h; simp [labelStep, h]
  have step1 : ∀ x j, t.adj a j ≠ none → labelStep t a (x, false) j =
      (x + (if ∃ b, t.adj a j = some b ∧ t.patch b ≠ t.patch a then 1 else 0), false) := by
    intro x j h
    obtain ⟨b, hb⟩ := Option.ne_none_iff_exists'.1 h
    unfold labelStep
    rw [hb]
    by_cases hp : t.patch b = t.patch a <;> simp [hp]
  rw [forLoop_four]
  have ex : (∃ j < 4, t.adj a j = none) ↔ t.adj a 0 = none ∨ t.adj a 1 = none ∨ t.adj a 2 = none ∨ t.adj a 3 = none := by
    constructor
    · rintro ⟨j, hj, h⟩; rcases lt4 hj with rfl | rfl | rfl | rfl <;> simp [h]
    · rintro (h | h | h | h)
      exacts [⟨0, by omega, h⟩, ⟨1, by omega, h⟩, ⟨2, by omega, h⟩, ⟨3, by omega, h⟩]
  rw [if_congr ex rfl rfl]
  by_cases h0 : t.adj a 0 = none
  · rw [step0 _ _ h0, step, step, step, if_pos (Or.inl h0)]
  rw [step1 _ _ h0]
  by_cases h1 : t.adj a 1 = none
  · rw [step0 _ _ h1, step, step, if_pos (Or.inr (Or.inl h1))]
  rw [step1 _ _ h1]
  by_cases h2 : t.adj a 2 = none
  · rw [step0 _ _ h2, step, if_pos (Or.inr (Or.inr (Or.inl h2)))]
  rw [step1 _ _ h2]
  by_cases h3 : t.adj a 3 = none
  · rw [step0 _ _ h3, if_pos (Or.inr (Or.inr (Or.inr h3)))]
  rw [step1 _ _ h3, if_neg (show ¬ (t.adj a 0 = none ∨ t.adj a 1 = none ∨ t.adj a 2 = none ∨ t.adj a 3 = none) by
    rintro (h | h | h | h)
    exacts [h0 h, h1 h, h2 h, h3 h])]
  exact edgeCount_sum (fun j => ∃ b, t.adj a j = some b ∧ t.patch b ≠ t.patch a)

/-- `a` is along the boundary of the whole surface: one of its edges is part of a patch edge that no other patch shares. -/
def OnSurfaceBoundary {V : Type} (corner : Nat → Nat → V) (P l : Nat) (a : Addr) : Prop :=
  ∃ i < 4, OnEdge l i a ∧ ∀ q < P, q ≠ a.1 → ∀ k < 4, patchEdge corner a.1 i ≠ patchEdge corner q k

theorem grid_neighbour_exists (P l i : Nat) (a : Addr) (ha : IsNode P l a) (hi : i < 4) (h : ¬ OnEdge l i a) :
    ∃ b, IsNode P l b ∧ b.1 = a.1 ∧ GridNeighbour i a b := by
  have p := pos_lt a.2
  rw [ha.2.1] at p
  unfold OnEdge at h
  have mk : ∀ x y, x < 2 ^ l → y < 2 ^ l → ∃ b, IsNode P l b ∧ b.1 = a.1 ∧ posX b.2 = x ∧ posY b.2 = y := by
    intro x y hx hy
    obtain ⟨w, w1, w2, w3, w4⟩ := pos_surj l x y hx hy
    exact ⟨(a.1, w), ⟨ha.1, w1, w2⟩, rfl, w3, w4⟩
  rcases lt4 hi with rfl | rfl | rfl | rfl
  · obtain ⟨b, b1, b2, b3, b4⟩ := mk (posX a.2) (posY a.2 - 1) p.1 (by omega)
    exact ⟨b, b1, b2, Or.inl ⟨rfl, b3, by omega⟩⟩
  · obtain ⟨b, b1, b2, b3, b4⟩ := mk (posX a.2 + 1) (posY a.2) (by omega) p.2
    exact ⟨b, b1, b2, Or.inr (Or.inl ⟨rfl, b3, by omega⟩)⟩
  · obtain ⟨b, b1, b2, b3, b4⟩ := mk (posX a.2) (posY a.2 + 1) p.1 (by omega)
    exact ⟨b, b1, b2, Or.inr (Or.inr (Or.inl ⟨rfl, b3, by omega⟩))⟩
  · obtain ⟨b, b1, b2, b3, b4⟩ := mk (posX a.2 - 1) (posY a.2) (by omega) p.2
    exact ⟨b, b1, b2, Or.inr (Or.inr (Or.inr ⟨rfl, by omega, b4⟩))⟩

theorem iface_neighbour_exists (P l i k q : Nat) (a : Addr) (ha : IsNode P l a) (hk : k < 4) (hq : q < P)
    (h : OnEdge l i a) (he : patchEdge corner a.1 i = patchEdge corner q k) :
    ∃ b, IsNode P l b ∧ b.1 = q ∧ InterfaceNeighbour corner l i k a b := by
  have p := pos_lt a.2
  rw [ha.2.1] at p
  have hpos : 0 < 2 ^ l := by positivity
  have hal : alongEdge l i a < 2 ^ l := by
    unfold alongEdge; split_ifs <;> omega
  have mk : ∀ s < 2 ^ l, ∃ b, IsNode P l b ∧ b.1 = q ∧ OnEdge l k b ∧ alongEdge l k b = s := by
    intro s hs
    have mk' : ∀ x y, x < 2 ^ l → y < 2 ^ l → ∃ b, IsNode P l b ∧ b.1 = q ∧ posX b.2 = x ∧ posY b.2 = y := by
      intro x y hx hy
      obtain ⟨w, w1, w2, w3, w4⟩ := pos_surj l x y hx hy
      exact ⟨(q, w), ⟨hq, w1, w2⟩, rfl, w3, w4⟩
    rcases lt4 hk with rfl | rfl | rfl | rfl
    · obtain ⟨b, b1, b2, b3, b4⟩ := mk' s 0 hs hpos
      exact ⟨b, b1, b2, Or.inl ⟨rfl, b4⟩, by unfold alongEdge; simp [b3]⟩
    · obtain ⟨b, b1, b2, b3, b4⟩ := mk' (2 ^ l - 1) s (by omega) hs
      exact ⟨b, b1, b2, Or.inr (Or.inl ⟨rfl, by omega⟩), by unfold alongEdge; simp [b4]⟩
    · obtain ⟨b, b1, b2, b3, b4⟩ := mk' (2 ^ l - 1 - s) (2 ^ l - 1) (by omega) (by omega)
      exact ⟨b, b1, b2, Or.inr (Or.inr (Or.inl ⟨rfl, by omega⟩)), by unfold alongEdge; simp [b3]; omega⟩
    · obtain ⟨b, b1, b2, b3, b4⟩ := mk' 0 (2 ^ l - 1 - s) (by omega) (by omega)
      exact ⟨b, b1, b2, Or.inr (Or.inr (Or.inr ⟨rfl, b3⟩)), by unfold alongEdge; simp [b4]; omega⟩
  unfold patchEdge at he
  rw [Sym2.eq_iff] at he
  rcases he with ⟨e1, e2⟩ | ⟨e1, e2⟩
  · obtain ⟨b, b1, b2, b3, b4⟩ := mk _ hal
    exact ⟨b, b1, b2, h, b3, Or.inl ⟨by rw [b2]; exact e1, by rw [b2]; exact e2, b4.symm⟩⟩
  · obtain ⟨b, b1, b2, b3, b4⟩ := mk (2 ^ l - 1 - alongEdge l i a) (by omega)
    exact ⟨b, b1, b2, h, b3, Or.inr ⟨by rw [b2]; exact e1, by rw [b2]; exact e2, by omega⟩⟩

/-- Which neighbour pointers are null. -/
theorem adj_none_iff {P : Nat} {t : Mesh.Tree K} {l : Nat}
    (h : ∀ a, IsNode P l a → ∀ i < 4, ∀ b,
      (t.adj a i = some b ↔ IsNode P l b ∧
        ((b.1 = a.1 ∧ GridNeighbour i a b) ∨ (b.1 ≠ a.1 ∧ ∃ k < 4, InterfaceNeighbour corner l i k a b))))
    {a : Addr} (ha : IsNode P l a) {i : Nat} (hi : i < 4) :
    t.adj a i = none ↔ OnEdge l i a ∧ ∀ q < P, q ≠ a.1 → ∀ k < 4, patchEdge corner a.1 i ≠ patchEdge corner q k := by
  constructor
  · intro hn
    have no : ∀ b, ¬ (IsNode P l b ∧ ((b.1 = a.1 ∧ GridNeighbour i a b) ∨
        (b.1 ≠ a.1 ∧ ∃ k < 4, InterfaceNeighbour corner l i k a b))) := by
      intro b hb
      rw [(h a ha i hi b).2 hb] at hn
      cases hn
    have he : OnEdge l i a := by
      by_contra he
      obtain ⟨b, b1, b2, b3⟩ := grid_neighbour_exists P l i a ha hi he
      exact no b ⟨b1, Or.inl ⟨b2, b3⟩⟩
    refine ⟨he, ?_⟩
    intro q hq hqa k hk hh
    obtain ⟨b, b1, b2, b3⟩ := iface_neighbour_exists corner P l i k q a ha hk hq he hh
    exact no b ⟨b1, Or.inr ⟨by rw [b2]; exact hqa, k, hk, b3⟩⟩
  · rintro ⟨he, hq⟩
    rw [Option.eq_none_iff_forall_ne_some]
    intro b hb
    obtain ⟨b1, ⟨b2, b3⟩ | ⟨b2, k, hk, _, _, b3⟩⟩ := (h a ha i hi b).1 hb
    · have pb := pos_lt b.2
      rw [b1.2.1] at pb
      unfold GridNeighbour at b3
      unfold OnEdge at he
      omega
    · refine hq b.1 b1.1 b2 k hk ?_
      unfold patchEdge
      rw [Sym2.eq_iff]
      rcases b3 with ⟨x, y, _⟩ | ⟨x, y, _⟩
      · exact Or.inl ⟨x, y⟩
      · exact Or.inr ⟨x, y⟩

open scoped Classical in
/-- C58: the boundary label of an element is -1 exactly if the element is along the boundary of the surface, otherwise
it is the number of its edges that are part of the boundary of its patch. -/
theorem C58_labels (P M : Nat) (hP : 0 < P) (hc : ConformingPatches near corner P) :
    ∃ t : Mesh.Tree K, initElementTree near corner P M = some t ∧ ∃ lab, generatePatchBoundaryLabels t = some lab ∧
      lab.length = P * 4 ^ M ∧ ∀ a, IsNode P M a → lab[t.id a]? = some
        (if OnSurfaceBoundary corner P M a then -1 else (edgeCount fun j => OnEdge M j a : Int)) := by
  obtain ⟨t, h1, h2⟩ := C22_adjacency (K := K) near corner P M hP hc
  obtain ⟨t', g1, g2, g3, g4, g5, g6, g7⟩ := tree_facts (K := K) near corner P M hP
  obtain rfl : t' = t := Option.some.inj (g1.symm.trans h1)
  have hel := elements_eq t' P M hP g3 g6
  refine ⟨t', h1, _, by unfold generatePatchBoundaryLabels; rw [hel]; rfl, by rw [List.length_map, leaves_length], ?_⟩
  intro a ha
  have ha' : a ∈ leaves P M := mem_leaves.2 ha
  have hadj := h2 M le_rfl
  have hget : (leaves P M)[t'.id a]? = some a := by
    obtain ⟨n, hn⟩ := List.mem_iff_getElem?.1 ha'
    have e := congrArg (fun l : List Nat => l[n]?) (leaves_ids P M)
    simp only [List.getElem?_map, hn, Option.map_some] at e
    have hlt : n < P * 4 ^ M := by
      rw [← leaves_length P M]
      exact (List.getElem?_eq_some_iff.1 hn).1
    rw [List.getElem?_range hlt, Option.some.injEq] at e
    rw [(g2 M le_rfl a ha').1, e, hn]
  rw [List.getElem?_map, hget, Option.map_some, labels_eq]
  have c1 : (∃ j < 4, t'.adj a j = none) ↔ OnSurfaceBoundary corner P M a := by
    unfold OnSurfaceBoundary
    constructor
    · rintro ⟨j, hj, h⟩; exact ⟨j, hj, (adj_none_iff corner hadj ha hj).1 h⟩
    · rintro ⟨j, hj, h⟩; exact ⟨j, hj, (adj_none_iff corner hadj ha hj).2 h⟩
  congr 1
  rw [if_congr c1 rfl rfl]
  by_cases hb : OnSurfaceBoundary corner P M a
  · rw [if_pos hb, if_pos hb]
  · rw [if_neg hb, if_neg hb]
    unfold edgeCount
    congr 2
    apply List.filter_congr
    intro j hj
    have hj4 : j < 4 := List.mem_range.1 hj
    rw [decide_eq_decide]
    constructor
    · rintro ⟨b, e1, e2⟩
      obtain ⟨b1, ⟨b2, b3⟩ | ⟨b2, k, hk, b3, _⟩⟩ := (hadj a ha j hj4 b).1 e1
      · rw [(g2 M le_rfl b (mem_leaves.2 b1)).2.2.1, (g2 M le_rfl a ha').2.2.1] at e2
        exact absurd b2 e2
      · exact b3
    · intro he
      have hn : t'.adj a j ≠ none := by
        intro hn
        exact hb (c1.1 ⟨j, hj4, hn⟩)
      obtain ⟨b, e⟩ := Option.ne_none_iff_exists'.1 hn
      refine ⟨b, e, ?_⟩
      obtain ⟨b1, ⟨b2, b3⟩ | ⟨b2, _⟩⟩ := (hadj a ha j hj4 b).1 e
      · have pb := pos_lt b.2
        rw [b1.2.1] at pb
        unfold GridNeighbour at b3
        unfold OnEdge at he
        omega
      · rw [(g2 M le_rfl b (mem_leaves.2 b1)).2.2.1, (g2 M le_rfl a ha').2.2.1]
        exact b2

/-- C58: `identifyPatch` marks exactly the elements of the given patch; the assertion fails for patches that do not exist. -/
theorem C58_identify (P M : Nat) (hP : 0 < P) :
    ∃ t : Mesh.Tree K, initElementTree near corner P M = some t ∧ (∀ pn, P ≤ pn → identifyPatch t pn = none) ∧
      ∀ pn < P, ∃ ind, identifyPatch t pn = some ind ∧ ind.length = P * 4 ^ M ∧
        ∀ a, IsNode P M a → ind[t.id a]? = some (if a.1 = pn then 1 else 0) := by
  obtain ⟨t, g1, g2, g3, g4, g5, g6, g7⟩ := tree_facts (K := K) near corner P M hP
  have hel := elements_eq t P M hP g3 g6
  refine ⟨t, g1, fun pn hpn => ?_, fun pn hpn => ⟨(leaves P M).map fun a => if t.patch a = pn then 1 else 0, ?_, ?_, ?_⟩⟩
  · unfold identifyPatch
    rw [if_neg (by rw [g5]; omega)]
  · unfold identifyPatch
    rw [if_pos (by rw [g5]; exact hpn), hel]
    rfl
  · rw [List.length_map, leaves_length]
  · intro a ha
    have ha' : a ∈ leaves P M := mem_leaves.2 ha
    have hget : (leaves P M)[t.id a]? = some a := by
      obtain ⟨n, hn⟩ := List.mem_iff_getElem?.1 ha'
      have e := congrArg (fun l : List Nat => l[n]?) (leaves_ids P M)
      simp only [List.getElem?_map, hn, Option.map_some] at e
      have hlt : n < P * 4 ^ M := by
        rw [← leaves_length P M]
        exact (List.getElem?_eq_some_iff.1 hn).1
      rw [List.getElem?_range hlt, Option.some.injEq] at e
      rw [(g2 M le_rfl a ha').1, e, hn]
    rw [List.getElem?_map, hget, Option.map_some, (g2 M le_rfl a ha').2.2.1]

end

/-! ## non-vacuity: two unit squares side by side -/

/-- Vertices of the two squares, numbered row by row. -/
def stripCorner (p i : Nat) : Nat := ((([[0, 1, 4, 3], [1, 2, 5, 4]] : List (List Nat)).getD p []).getD i 0)

/-- Position of the vertices. -/
def stripPoint (n : Nat) : ℝ × ℝ := (((n % 3 : Nat) : ℝ), ((n / 3 : Nat) : ℝ))

/-- The two patches. -/
def stripMap (p : Nat) (x : ℝ × ℝ) : ℝ × ℝ := ((p : ℝ) + x.1, x.2)

theorem stripPoint_inj (m n : Nat) (h : stripPoint m = stripPoint n) : m = n := by
  unfold stripPoint at h
  rw [Prod.mk.injEq] at h
  have h1 : m % 3 = n % 3 := by exact_mod_cast h.1
  have h2 : m / 3 = n / 3 := by exact_mod_cast h.2
  omega

open scoped Classical in
/-- Conformity only depends on which corners are equal. -/
theorem conforming_map {V : Type} (e : Nat → V) (he : ∀ m n, e m = e n → m = n) (corner : Nat → Nat → Nat) (P : Nat)
    (h : ConformingPatches (fun a b => a == b) corner P) :
    ConformingPatches (fun a b => decide (a = b)) (fun p i => e (corner p i)) P := by
  have hE : ∀ p q i j, patchEdge (fun p i => e (corner p i)) p i = patchEdge (fun p i => e (corner p i)) q j →
      patchEdge corner p i = patchEdge corner q j := by
    intro p q i j hh
    unfold patchEdge at hh ⊢
    rw [Sym2.eq_iff] at hh ⊢
    rcases hh with ⟨a, b⟩ | ⟨a, b⟩
    · exact Or.inl ⟨he _ _ a, he _ _ b⟩
    · exact Or.inr ⟨he _ _ a, he _ _ b⟩
  refine ⟨fun p _ q _ i _ j _ => by simp, fun p hp i hi j hj hh => h.distinct p hp i hi j hj (he _ _ hh), ?_, ?_⟩
  · intro p hp q hq r hr i hi j hj k hk h1 h2
    exact h.twoSides p hp q hq r hr i hi j hj k hk (hE _ _ _ _ h1) (hE _ _ _ _ h2)
  · intro p hp q hq hpq i hi i' hi' j hj j' hj' h1 h2
    exact h.oneEdge p hp q hq hpq i hi i' hi' j hj j' hj' (hE _ _ _ _ h1) (hE _ _ _ _ h2)

theorem strip_conforming : ConformingPatches (fun a b : Nat => a == b) stripCorner 2 := by
  refine ⟨?_, ?_, ?_, ?_⟩
  · intros; simp
  · decide +kernel
  · intro p hp q hq r hr i hi j hj k hk h1 h2
    rw [← edgeTest_iff] at h1 h2
    have h : (List.range 2).all (fun p => (List.range 2).all fun q => (List.range 2).all fun r =>
      (List.range 4).all fun i => (List.range 4).all fun j => (List.range 4).all fun k =>
      (!edgeTest stripCorner p i q j) || (!edgeTest stripCorner p i r k) ||
      decide ((p, i) = (q, j)) || decide ((p, i) = (r, k)) || decide ((q, j) = (r, k))) = true := by decide +kernel
    have h' := all_range (all_range (all_range (all_range (all_range (all_range h hp) hq) hr) hi) hj) hk
    rw [h1, h2] at h'
    simpa only [Bool.not_true, Bool.false_or, Bool.or_eq_true, decide_eq_true_eq, or_assoc] using h'
  · intro p hp q hq hpq i hi i' hi' j hj j' hj' h1 h2
    rw [← edgeTest_iff] at h1 h2
    have h : (List.range 2).all (fun p => (List.range 2).all fun q => (List.range 4).all fun i =>
      (List.range 4).all fun i' => (List.range 4).all fun j => (List.range 4).all fun j' =>
      decide (p = q) || (!edgeTest stripCorner p i q j) || (!edgeTest stripCorner p i' q j') || decide (i = i')) = true := by
      decide +kernel
    have h' := all_range (all_range (all_range (all_range (all_range (all_range h hp) hq) hi) hi') hj) hj'
    rw [h1, h2] at h'
    simpa [hpq] using h'

theorem strip_watertight : Watertight (fun p i => stripPoint (stripCorner p i)) 2 stripMap := by
  refine ⟨?_, ?_, ?_⟩
  · intro p hp i hi
    have hp' : p = 0 ∨ p = 1 := by omega
    rcases hp' with rfl | rfl <;> rcases lt4 hi with rfl | rfl | rfl | rfl <;>
      simp [stripMap, cornerPoint, edgePoint, stripPoint, stripCorner] <;> norm_num
  · intro p hp q hq hpq i hi j hj h1 h2
    have e1 := stripPoint_inj _ _ h1
    have e2 := stripPoint_inj _ _ h2
    have hp' : p = 0 ∨ p = 1 := by omega
    have hq' : q = 0 ∨ q = 1 := by omega
    exfalso
    revert e1 e2 hpq
    rcases hp' with rfl | rfl <;> rcases hq' with rfl | rfl <;> rcases lt4 hi with rfl | rfl | rfl | rfl <;>
      rcases lt4 hj with rfl | rfl | rfl | rfl <;> decide
  · intro p hp q hq hpq i hi j hj h1 h2 s _ _
    have e1 := stripPoint_inj _ _ h1
    have e2 := stripPoint_inj _ _ h2
    have hp' : p = 0 ∨ p = 1 := by omega
    have hq' : q = 0 ∨ q = 1 := by omega
    have key : (p, i, q, j) = (0, 1, 1, 3) ∨ (p, i, q, j) = (1, 3, 0, 1) := by
      revert e1 e2 hpq
      rcases hp' with rfl | rfl <;> rcases hq' with rfl | rfl <;> rcases lt4 hi with rfl | rfl | rfl | rfl <;>
        rcases lt4 hj with rfl | rfl | rfl | rfl <;> decide
    rcases key with h | h <;> (simp only [Prod.mk.injEq] at h; obtain ⟨rfl, rfl, rfl, rfl⟩ := h) <;>
      simp [stripMap, edgePoint]

open scoped Classical in
/-- Non-vacuity of C22_same_point, C22_point_list, C24_balls and C58_labels. -/
theorem strip_setting : ConformingPatches (fun a b : ℝ × ℝ => @decide (a = b) (Classical.propDecidable _))
    (fun p i => stripPoint (stripCorner p i)) 2 ∧
    Watertight (fun p i => stripPoint (stripCorner p i)) 2 stripMap :=
  ⟨conforming_map stripPoint stripPoint_inj stripCorner 2 strip_conforming, strip_watertight⟩

end Bembel.Props
