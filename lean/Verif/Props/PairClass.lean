import Verif.Props.MeshTopo
import Verif.Props.MeshSurface
import Verif.Lemmas.BlockCluster
import Verif.Spec.PairClass
import Verif.Props.Duffy
/-!
# C44: classification of pairs of elements
-/

set_option linter.unusedSectionVars false

namespace Bembel.Props
open Duffy Mesh Util BlockCluster

/-- The search on a table of coincidences. -/
def searchTable (m : Nat → Nat → Bool) : Nat × Nat × Nat :=
  match ((List.range 4).flatMap fun rot1 => (List.range 4).map fun rot2 => (rot1, rot2)).find? fun r => m r.1 r.2 with
  | some (rot1, rot2) =>
    if m 3 ((rot2 + 1) % 4) then (3, rot2, 3)
    else if m ((rot1 + 1) % 4) ((rot2 + 3) % 4) then (rot1, (rot2 + 3) % 4, 3)
    else (rot1, rot2, 4)
  | none => (4, 4, 0)

theorem commonVertices_eq (v1 v2 : Nat → Nat) (m : Nat → Nat → Bool)
    (h : ∀ i < 4, ∀ j < 4, v1 i = v2 j ↔ m i j = true) : commonVertices v1 v2 = searchTable m := by
  have e : ((List.range 4).flatMap fun rot1 => (List.range 4).map fun rot2 => (rot1, rot2)).find?
      (fun r => v1 r.1 == v2 r.2) =
      ((List.range 4).flatMap fun rot1 => (List.range 4).map fun rot2 => (rot1, rot2)).find? fun r => m r.1 r.2 := by
    refine List.find?_congr fun r hr => ?_
    simp only [List.mem_flatMap, List.mem_range, List.mem_map] at hr
    obtain ⟨i, hi, j, hj, rfl⟩ := hr
    rw [Bool.eq_iff_iff, beq_iff_eq]
    exact h i hi j hj
  unfold commonVertices searchTable
  rw [e]
  cases ((List.range 4).flatMap fun rot1 => (List.range 4).map fun rot2 => (rot1, rot2)).find? fun r => m r.1 r.2 with
  | none => rfl
  | some r =>
    obtain ⟨rot1, rot2⟩ := r
    simp only [h 3 (by omega) _ (Nat.mod_lt _ (by omega)), h _ (Nat.mod_lt (rot1 + 1) (by omega)) _ (Nat.mod_lt (rot2 + 3) (by omega))]

/-- C44: the search for common vertices: nothing in common, a common vertex, or a common edge are recognised for all positions of
the vertices, and the returned numbers are those of the common vertex resp. edge. -/
theorem C44_search (v1 v2 : Nat → Nat) :
    (ShareNothing v1 v2 → commonVertices v1 v2 = (4, 4, 0)) ∧
    (∀ r s, ShareVertex v1 v2 r s → commonVertices v1 v2 = (r, s, 4)) ∧
    (∀ r s, ShareEdge v1 v2 r s → commonVertices v1 v2 = (r, s, 3)) := by
  refine ⟨?_, ?_, ?_⟩
  · intro h
    rw [commonVertices_eq v1 v2 (fun _ _ => false) fun i hi j hj => by simpa using h i hi j hj]
    decide
  · rintro r s ⟨hr, hs, h⟩
    rw [commonVertices_eq v1 v2 (fun i j => i == r && j == s) fun i hi j hj => by simpa using h i hi j hj]
    have : ∀ r < 4, ∀ s < 4, searchTable (fun i j => i == r && j == s) = (r, s, 4) := by decide +kernel
    exact this r hr s hs
  · rintro r s ⟨hr, hs, h⟩
    rw [commonVertices_eq v1 v2 (fun i j => (i == r && j == (s + 1) % 4) || (i == (r + 1) % 4 && j == s))
      fun i hi j hj => by simpa using h i hi j hj]
    have : ∀ r < 4, ∀ s < 4, searchTable (fun i j => (i == r && j == (s + 1) % 4) || (i == (r + 1) % 4 && j == s)) = (r, s, 3) := by
      decide +kernel
    exact this r hr s hs

/-- The consistent orientation is needed: for two elements whose common edge runs in the same direction in both of them, the
search reports a common vertex only, or a wrong edge. -/
theorem C44_needs_orientation :
    commonVertices (fun i => [1, 2, 3, 4].getD i 0) (fun i => [1, 2, 5, 6].getD i 0) = (0, 0, 4) ∧
    commonVertices (fun i => [1, 2, 3, 4].getD i 0) (fun i => [3, 4, 5, 6].getD i 0) = (3, 0, 3) := by decide +kernel

/-- The hypotheses are met: two squares which share an edge, and two squares which share a vertex. -/
example : ShareEdge (fun i => [0, 1, 4, 3].getD i 0) (fun i => [1, 2, 5, 4].getD i 0) 1 3 ∧
    ShareVertex (fun i => [0, 1, 4, 3].getD i 0) (fun i => [4, 5, 8, 7].getD i 0) 2 0 := by
  unfold ShareEdge ShareVertex
  decide +kernel

/-- Truth table of the coincidences of the vertices of two sons. -/
def tbl (e00 e11 e13 e31 e33 e22 : Bool) (m n : Nat) : Bool :=
  if m = 0 ∧ n = 0 then e00 else if m = 1 ∧ n = 1 then e11 else if m = 1 ∧ n = 3 then e13
  else if m = 3 ∧ n = 1 then e31 else if m = 3 ∧ n = 3 then e33 else if m = 2 ∧ n = 2 then e22 else false

/-- Possible combinations. -/
def okBits (i j : Nat) (e00 e11 e13 e31 e33 e22 : Bool) : Bool :=
  if e22 then i != j && !e00 && !e11 && !e33 && (e13 == (i == (j + 3) % 4)) && (e31 == ((i + 3) % 4 == j))
  else (!e11 || (!e00 && !e13 && !e31 && !e33)) && (!e33 || (!e00 && !e13 && !e31 && !e11)) &&
    (!e13 || (e00 && !e11 && !e31 && !e33)) && (!e31 || (e00 && !e11 && !e13 && !e33))

def tableClass (m : Nat → Nat → Bool) : Bool :=
  ((List.range 4).all fun i => (List.range 4).all fun j => !m i j) ||
  ((List.range 4).any fun r => (List.range 4).any fun s =>
    ((List.range 4).all fun i => (List.range 4).all fun j => m i j == (i == r && j == s)) ||
    ((List.range 4).all fun i => (List.range 4).all fun j => m i j == ((i == r && j == (s + 1) % 4) || (i == (r + 1) % 4 && j == s))))

theorem table_all : ((List.range 4).all fun i => (List.range 4).all fun j => [false, true].all fun e00 => [false, true].all fun e11 =>
    [false, true].all fun e13 => [false, true].all fun e31 => [false, true].all fun e33 => [false, true].all fun e22 =>
    !okBits i j e00 e11 e13 e31 e33 e22 ||
      tableClass fun k k' => tbl e00 e11 e13 e31 e33 e22 ((k + 4 - i) % 4) ((k' + 4 - j) % 4)) = true := by decide +kernel

theorem class_of_table (v1 v2 : Nat → Nat) (m : Nat → Nat → Bool) (h : ∀ i < 4, ∀ j < 4, v1 i = v2 j ↔ m i j = true)
    (hm : tableClass m = true) :
    ShareNothing v1 v2 ∨ (∃ r s, ShareVertex v1 v2 r s) ∨ ∃ r s, ShareEdge v1 v2 r s := by
  simp only [tableClass, Bool.or_eq_true, List.all_eq_true, List.any_eq_true, List.mem_range] at hm
  rcases hm with hm | ⟨r, hr, s, hs, hm | hm⟩
  · refine Or.inl fun i hi j hj e => ?_
    have := hm i hi j hj
    rw [(h i hi j hj).1 e] at this
    simp at this
  · refine Or.inr (Or.inl ⟨r, s, hr, hs, fun i hi j hj => ?_⟩)
    rw [h i hi j hj, beq_iff_eq.1 (hm i hi j hj)]
    simp
  · refine Or.inr (Or.inr ⟨r, s, hr, hs, fun i hi j hj => ?_⟩)
    rw [h i hi j hj, beq_iff_eq.1 (hm i hi j hj)]
    simp

open scoped Classical in
theorem sons_class {vert : Addr → Nat → Nat} {S : Addr → Prop} {N N' : Nat} (c : Conf vert S N) (r : Refd vert S N N')
    (o : Opp vert S) (a b : Addr) (i j : Nat) (ha : S a) (hb : S b) (hi : i < 4) (hj : j < 4) (hne : son a i ≠ son b j) :
    ShareNothing (vert (son a i)) (vert (son b j)) ∨ (∃ r s, ShareVertex (vert (son a i)) (vert (son b j)) r s) ∨
      ∃ r s, ShareEdge (vert (son a i)) (vert (son b j)) r s := by
  let e00 : Bool := decide (vert a i = vert b j)
  let e11 : Bool := decide (E vert a i = E vert b j)
  let e13 : Bool := decide (E vert a i = E vert b ((j + 3) % 4))
  let e31 : Bool := decide (E vert a ((i + 3) % 4) = E vert b j)
  let e33 : Bool := decide (E vert a ((i + 3) % 4) = E vert b ((j + 3) % 4))
  let e22 : Bool := decide (a = b)
  have m3 : ∀ x, (x + 3) % 4 < 4 := fun x => Nat.mod_lt _ (by omega)
  have val : ∀ (d : Addr) (x : Nat), S d → x < 4 → ∀ k < 4,
      ((k + 4 - x) % 4 = 0 → vert (son d x) k = vert d x) ∧ ((k + 4 - x) % 4 = 1 → vert (son d x) k = mid vert d x) ∧
      ((k + 4 - x) % 4 = 2 → vert (son d x) k = ctr vert d) ∧
      ((k + 4 - x) % 4 = 3 → vert (son d x) k = mid vert d ((x + 3) % 4)) := by
    intro d x hd hx k hk
    refine ⟨fun h => ?_, fun h => ?_, fun h => ?_, fun h => ?_⟩
    · rw [← r.v0 d hd x hx]; congr 1; omega
    · unfold mid; congr 1; omega
    · rw [← r.v2 d hd x hx]; congr 1; omega
    · rw [← r.v3 d hd x hx]; congr 1; omega
  have la := fun k hk => c.lt a ha k hk
  have lb := fun k hk => c.lt b hb k hk
  have table : ∀ k < 4, ∀ k' < 4, vert (son a i) k = vert (son b j) k' ↔
      tbl e00 e11 e13 e31 e33 e22 ((k + 4 - i) % 4) ((k' + 4 - j) % 4) = true := by
    intro k hk k' hk'
    obtain ⟨p0, p1, p2, p3⟩ := val a i ha hi k hk
    obtain ⟨q0, q1, q2, q3⟩ := val b j hb hj k' hk'
    have hx : (k + 4 - i) % 4 < 4 := Nat.mod_lt _ (by omega)
    have hy : (k' + 4 - j) % 4 < 4 := Nat.mod_lt _ (by omega)
    generalize (k + 4 - i) % 4 = x at *
    generalize (k' + 4 - j) % 4 = y at *
    have na := la i hi
    have nb := lb j hj
    have ra1 := r.mid_rng a ha i hi
    have ra3 := r.mid_rng a ha _ (m3 i)
    have ra2 := r.ctr_rng a ha
    have rb1 := r.mid_rng b hb j hj
    have rb3 := r.mid_rng b hb _ (m3 j)
    have rb2 := r.ctr_rng b hb
    obtain rfl | rfl | rfl | rfl := lt4 hx <;> obtain rfl | rfl | rfl | rfl := lt4 hy
    · rw [p0 rfl, q0 rfl]; simp [tbl, e00]
    · rw [p0 rfl, q1 rfl]; simp only [tbl]; simp; omega
    · rw [p0 rfl, q2 rfl]; simp only [tbl]; simp; omega
    · rw [p0 rfl, q3 rfl]; simp only [tbl]; simp; omega
    · rw [p1 rfl, q0 rfl]; simp only [tbl]; simp; omega
    · rw [p1 rfl, q1 rfl, r.mid_iff a b i j ha hb hi hj]; simp [tbl, e11]
    · rw [p1 rfl, q2 rfl]; simp only [tbl]; simpa using r.mid_ctr a b i ha hb hi
    · rw [p1 rfl, q3 rfl, r.mid_iff a b i _ ha hb hi (m3 j)]; simp [tbl, e13]
    · rw [p2 rfl, q0 rfl]; simp only [tbl]; simp; omega
    · rw [p2 rfl, q1 rfl]; simp only [tbl]; simpa using (r.mid_ctr b a j hb ha hj).symm
    · rw [p2 rfl, q2 rfl]; simp only [tbl]; simp only [e22]; simp
      exact ⟨r.ctr_inj a b ha hb, fun h => by rw [h]⟩
    · rw [p2 rfl, q3 rfl]; simp only [tbl]; simpa using (r.mid_ctr b a _ hb ha (m3 j)).symm
    · rw [p3 rfl, q0 rfl]; simp only [tbl]; simp; omega
    · rw [p3 rfl, q1 rfl, r.mid_iff a b _ j ha hb (m3 i) hj]; simp [tbl, e31]
    · rw [p3 rfl, q2 rfl]; simp only [tbl]; simpa using r.mid_ctr a b _ ha hb (m3 i)
    · rw [p3 rfl, q3 rfl, r.mid_iff a b _ _ ha hb (m3 i) (m3 j)]; simp [tbl, e33]
  have bits : okBits i j e00 e11 e13 e31 e33 e22 = true := by
    by_cases hab : a = b
    · subst hab
      have hij : i ≠ j := fun h => hne (by rw [h])
      have inj := E_inj_of (c.inj a ha)
      have hE : ∀ x y, x < 4 → y < 4 → (E vert a x = E vert a y ↔ x = y) := fun x y hx hy => ⟨inj x hx y hy, fun h => by rw [h]⟩
      have h00 : e00 = false := by
        simp only [e00, decide_eq_false_iff_not]
        exact fun h => hij (c.inj a ha i hi j hj h)
      have h11 : e11 = false := by simp only [e11, decide_eq_false_iff_not, hE i j hi hj]; exact hij
      have h33 : e33 = false := by simp only [e33, decide_eq_false_iff_not, hE _ _ (m3 i) (m3 j)]; omega
      have h13 : e13 = (i == (j + 3) % 4) := by
        rw [Bool.eq_iff_iff]; simp only [e13, decide_eq_true_eq, beq_iff_eq, hE i _ hi (m3 j)]
      have h31 : e31 = ((i + 3) % 4 == j) := by
        rw [Bool.eq_iff_iff]; simp only [e31, decide_eq_true_eq, beq_iff_eq, hE _ j (m3 i) hj]
      have h22 : e22 = true := by simp [e22]
      rw [h00, h11, h33, h13, h31, h22]
      simp [okBits, hij]
    · have h22 : e22 = false := by simp [e22, hab]
      have one := fun x x' y y' hx hx' hy hy' => c.one a b x x' y y' ha hb hab hx hx' hy hy'
      have one' := fun x x' y y' hx hx' hy hy' => c.one b a x x' y y' hb ha (Ne.symm hab) hx hx' hy hy'
      have op := fun x y hx hy => o a b x y ha hb hx hy (fun h => hab (by injection h))
      have injb := c.inj b hb
      have mm : ((j + 3) % 4 + 1) % 4 = j := by omega
      have mi : ((i + 3) % 4 + 1) % 4 = i := by omega
      have s1 : E vert a i = E vert b j → vert a i ≠ vert b j := by
        intro h h'
        have := (op i j hi hj h).1
        have := injb _ (Nat.mod_lt _ (by omega)) j hj (this.symm.trans h')
        omega
      have s2 : E vert a ((i + 3) % 4) = E vert b ((j + 3) % 4) → vert a i ≠ vert b j := by
        intro h h'
        have := (op _ _ (m3 i) (m3 j) h).2
        rw [mi] at this
        have := injb _ (m3 j) j hj (this.symm.trans h')
        omega
      have s3 : E vert a i = E vert b ((j + 3) % 4) → vert a i = vert b j := by
        intro h
        have := (op i _ hi (m3 j) h).1
        rwa [mm] at this
      have s4 : E vert a ((i + 3) % 4) = E vert b j → vert a i = vert b j := by
        intro h
        have := (op _ j (m3 i) hj h).2
        rwa [mi] at this
      have n1 : E vert a i = E vert b j → E vert a i ≠ E vert b ((j + 3) % 4) := fun h h' => by
        have := one' j _ i i hj (m3 j) hi hi h.symm h'.symm; omega
      have n2 : E vert a i = E vert b j → E vert a ((i + 3) % 4) ≠ E vert b j := fun h h' => by
        have := one i _ j j hi (m3 i) hj hj h h'; omega
      have n3 : E vert a i = E vert b j → E vert a ((i + 3) % 4) ≠ E vert b ((j + 3) % 4) := fun h h' => by
        have := one i _ j _ hi (m3 i) hj (m3 j) h h'; omega
      have n4 : E vert a ((i + 3) % 4) = E vert b ((j + 3) % 4) → E vert a i ≠ E vert b ((j + 3) % 4) := fun h h' => by
        have := one i _ _ _ hi (m3 i) (m3 j) (m3 j) h' h; omega
      have n5 : E vert a ((i + 3) % 4) = E vert b ((j + 3) % 4) → E vert a ((i + 3) % 4) ≠ E vert b j := fun h h' => by
        have := one' j _ _ _ hj (m3 j) (m3 i) (m3 i) h'.symm h.symm; omega
      have n6 : E vert a i = E vert b ((j + 3) % 4) → E vert a ((i + 3) % 4) ≠ E vert b j := fun h h' => by
        have := one i _ _ j hi (m3 i) (m3 j) hj h h'; omega
      simp only [okBits, h22, e00, e11, e13, e31, e33, Bool.false_eq_true, if_false, Bool.and_eq_true, Bool.or_eq_true,
        Bool.not_eq_true', decide_eq_false_iff_not, decide_eq_true_eq]
      refine ⟨⟨⟨?_, ?_⟩, ?_⟩, ?_⟩
      · by_cases h : E vert a i = E vert b j
        · exact Or.inr ⟨⟨⟨s1 h, n1 h⟩, n2 h⟩, n3 h⟩
        · exact Or.inl h
      · by_cases h : E vert a ((i + 3) % 4) = E vert b ((j + 3) % 4)
        · exact Or.inr ⟨⟨⟨s2 h, n4 h⟩, n5 h⟩, fun h' => n3 h' h⟩
        · exact Or.inl h
      · by_cases h : E vert a i = E vert b ((j + 3) % 4)
        · exact Or.inr ⟨⟨⟨s3 h, fun h' => n1 h' h⟩, n6 h⟩, fun h' => n4 h' h⟩
        · exact Or.inl h
      · by_cases h : E vert a ((i + 3) % 4) = E vert b j
        · exact Or.inr ⟨⟨⟨s4 h, fun h' => n2 h' h⟩, fun h' => n6 h' h⟩, fun h' => n5 h' h⟩
        · exact Or.inl h
  have all := table_all
  simp only [List.all_eq_true, List.mem_range] at all
  have := all i hi j hj e00 (by cases e00 <;> simp) e11 (by cases e11 <;> simp) e13 (by cases e13 <;> simp)
    e31 (by cases e31 <;> simp) e33 (by cases e33 <;> simp) e22 (by cases e22 <;> simp)
  rw [bits] at this
  exact class_of_table _ _ _ table (by simpa using this)

section mesh
variable {V : Type} (near : V → V → Bool) (corner : Nat → Nat → V)

/-- C44: in a refined mesh of conforming, consistently oriented patches two different elements have nothing in common, or exactly
one vertex, or exactly one edge, which they traverse in opposite directions. -/
theorem C44_mesh {K : Type} [Field K] (P M : Nat) (hP : 0 < P)
    (hc : ConformingPatches near corner P) (ho : OrientedPatches corner P) :
    ∃ t : Mesh.Tree K, initElementTree near corner P M = some t ∧ ∀ l, 1 ≤ l → l ≤ M → ∀ a b, IsNode P l a → IsNode P l b → a ≠ b →
      ShareNothing (t.vert a) (t.vert b) ∨ (∃ r s, ShareVertex (t.vert a) (t.vert b) r s) ∨
      ∃ r s, ShareEdge (t.vert a) (t.vert b) r s := by
  obtain ⟨t, N, h1, h2, h3, h4, h5, h6, h7⟩ := topo_facts (K := K) near corner P M hP hc
  refine ⟨t, h1, ?_⟩
  intro l hl1 hl a b ha hb hab
  have opp0 : Opp t.vert (· ∈ leaves P 0) := by
    intro x y i i' hx hy hi hi' hxy hE'
    obtain ⟨p, hp, rfl⟩ := mem_leaves_zero.1 hx
    obtain ⟨q, hq, rfl⟩ := mem_leaves_zero.1 hy
    have hpq : p ≠ q := by
      rintro rfl
      exact hxy (by rw [E_inj_of ((level_conf h3 h4 h5 0 (by omega)).1.inj (p, []) hx) i hi i' hi' hE'])
    obtain ⟨o1, o2⟩ := ho p hp q hq hpq i hi i' hi' ((patch_edge_iff corner h6 hp hq hi hi').1 hE')
    exact ⟨(h6 p i q _ hp hq hi (Nat.mod_lt _ (by omega))).2 o1, (h6 p _ q i' hp hq (Nat.mod_lt _ (by omega)) hi').2 o2⟩
  obtain ⟨l, rfl⟩ : ∃ k, l = k + 1 := ⟨l - 1, by omega⟩
  obtain ⟨a', ha', i, hi, rfl⟩ := mem_leaves_succ.1 (mem_leaves.2 ha)
  obtain ⟨b', hb', j, hj, rfl⟩ := mem_leaves_succ.1 (mem_leaves.2 hb)
  exact sons_class (h3 l (by omega)).conf (h3 l (by omega)).refd (opp_levels h3 opp0 l (by omega)) a' b' i j ha' hb' hi hj hab

end mesh

section compare
variable {W : Type} [NormedAddCommGroup W] [NormedSpace ℝ W]

/-- C44: on the mesh the classification returns identical, common edge with the two edge numbers, common vertex with the two vertex
numbers, or distant.  Touching elements are never distant and have distance zero.  The returned numbers are rotations which bring
the common vertex resp. edge to the first vertex resp. edge of both elements, where the two parametrisations agree. -/
theorem C44_compare (near : W → W → Bool) (corner : Nat → Nat → W) (P M : Nat) (hP : 0 < P)
    (hc : ConformingPatches near corner P) (F : Nat → ℝ × ℝ → W) (hw : Watertight corner P F) (junk : Nat → W) (B0 : Addr → Ball W) :
    ∃ t : Mesh.Tree ℝ, initElementTree near corner P M = some t ∧ ∃ B, computeElementEnclosings t F junk B0 = some B ∧
      ∀ a b, IsNode P M a → IsNode P M b →
        let point := fun (a : Addr) (x : ℝ × ℝ) => F (t.patch a) ((t.llc a).1 + getH t a * x.1, (t.llc a).2 + getH t a * x.2)
        (a = b → compareElements t B a b = ((4, 4, 2), 0)) ∧
        (a ≠ b → ShareNothing (t.vert a) (t.vert b) → compareElements t B a b = ((4, 4, 0), elementDist B a b)) ∧
        (∀ r s, a ≠ b → ShareVertex (t.vert a) (t.vert b) r s → compareElements t B a b = ((r, s, 4), 0) ∧
          point a (tau 0 0 r) = point b (tau 0 0 s)) ∧
        (∀ r s, a ≠ b → ShareEdge (t.vert a) (t.vert b) r s → compareElements t B a b = ((r, s, 3), 0) ∧
          ∀ x : ℝ, 0 ≤ x → x ≤ 1 → point a (tau x 0 r) = point b (tau (1 - x) 0 s)) := by
  obtain ⟨t, h1, B, h2, h3⟩ := C24_balls near corner P M hP hc F hw junk B0
  obtain ⟨t', h1', h4⟩ := C22_same_point (K := ℝ) near corner P M hP hc F hw
  obtain rfl : t' = t := Option.some.inj (h1'.symm.trans h1)
  refine ⟨t', h1, B, h2, ?_⟩
  intro a b ha hb point
  have touch : ∀ i j, i < 4 → j < 4 → t'.vert a i = t'.vert b j → elementDist B a b = 0 := by
    intro i j hi hj hv
    obtain ⟨-, ba, -⟩ := h3 M le_rfl a ha
    obtain ⟨-, bb, -⟩ := h3 M le_rfl b hb
    have e1 := ba a ha rfl ⟨[], rfl⟩ i hi
    have e2 := bb b hb rfl ⟨[], rfl⟩ j hj
    have e3 := (h4 M le_rfl a b ha hb i hi j hj).1 hv
    simp only at e3
    rw [← e3] at e2
    have e4 : ‖(B a).mid - (B b).mid‖ ≤ (B a).rad + (B b).rad := by
      have := norm_sub_le (F (t'.patch a) ((t'.llc a).1 + getH t' a * (cornerPoint i : ℝ × ℝ).1, (t'.llc a).2 + getH t' a * (cornerPoint i : ℝ × ℝ).2) - (B b).mid)
        (F (t'.patch a) ((t'.llc a).1 + getH t' a * (cornerPoint i : ℝ × ℝ).1, (t'.llc a).2 + getH t' a * (cornerPoint i : ℝ × ℝ).2) - (B a).mid)
      rw [sub_sub_sub_cancel_left] at this
      linarith
    unfold elementDist
    simp only
    split_ifs with h
    · linarith
    · rfl
  have near' : a ≠ b → elementDist B a b = 0 → compareElements t' B a b = (commonVertices (t'.vert a) (t'.vert b), 0) := by
    intro hab h0
    simp only [compareElements, if_neg hab, h0]
    rw [if_neg]
    rw [not_lt]
    positivity
  obtain ⟨s1, s2, s3⟩ := C44_search (t'.vert a) (t'.vert b)
  refine ⟨?_, ?_, ?_, ?_⟩
  · intro hab
    simp [compareElements, hab]
  · intro hab hn
    simp only [compareElements, if_neg hab, s1 hn, ite_self]
  · intro r s hab hv
    obtain ⟨hr, hs, hv'⟩ := id hv
    have hrs := (hv' r hr s hs).2 ⟨rfl, rfl⟩
    refine ⟨?_, ?_⟩
    · rw [near' hab (touch r s hr hs hrs), s2 r s hv]
    · rw [(C43_edge r hr).2.1, (C43_edge s hs).2.1]
      exact (h4 M le_rfl a b ha hb r hr s hs).1 hrs
  · intro r s hab hv
    obtain ⟨hr, hs, hv'⟩ := id hv
    have m1 : ∀ x, (x + 1) % 4 < 4 := fun x => Nat.mod_lt _ (by omega)
    have e1 := (hv' r hr _ (m1 s)).2 (Or.inl ⟨rfl, rfl⟩)
    have e2 := (hv' _ (m1 r) s hs).2 (Or.inr ⟨rfl, rfl⟩)
    refine ⟨?_, ?_⟩
    · rw [near' hab (touch r _ hr (m1 s) e1), s3 r s hv]
    · intro x hx hx'
      rw [(C43_edge r hr).1, (C43_edge s hs).1]
      exact (h4 M le_rfl a b ha hb r hr s hs).2.2 e1 e2 x hx hx'

/-- C45: the value computed for a pair of elements is the mesh width squared times the quadrature of the integrand, transformed as
the relative position of the two elements requires, with both elements rotated to the common edge or vertex. -/
theorem C45_pair {SP E : Type} [AddCommGroup E] [Module ℝ E] (near : W → W → Bool) (corner : Nat → Nat → W) (P M : Nat) (hP : 0 < P)
    (hc : ConformingPatches near corner P) (F : Nat → ℝ × ℝ → W) (hw : Watertight corner P F) (junk : Nat → W) (B0 : Addr → Ball W)
    (ev : SP → SP → E → E) (surf : Addr → ℝ × ℝ → ℝ → SP) (G : Addr → Addr → PointPair → E)
    (hev : ∀ a b, AddsIntegrand ev (surf a) (surf b) (G a b)) (order : Int) (p : Nat) (GS : Nat → Cubature ℝ)
    (ffq : Addr → Nat → SP)
    (hff : ∀ a, IsNode P M a → ∀ k < (GS (farfieldDegree order p).toNat).size, ffq a k =
      surf a ((GS (farfieldDegree order p).toNat).xi k) (1 / 2 ^ M * (GS (farfieldDegree order p).toNat).w k)) :
    ∃ t : Mesh.Tree ℝ, initElementTree near corner P M = some t ∧ ∃ B, computeElementEnclosings t F junk B0 = some B ∧
      ∀ a b, IsNode P M a → IsNode P M b → pairDegree order p (compareElements t B a b).2 M < 50 →
        let Q := GS (pairDegree order p (compareElements t B a b).2 M).toNat
        let value := evaluateBilinearForm order p t B ev surf GS ffq a b
        (a = b → value = some ((1 / 2 ^ M : ℝ) ^ 2 • pairQuad Q (transformed2 (G a b)))) ∧
        (a ≠ b → ShareNothing (t.vert a) (t.vert b) → value = some ((1 / 2 ^ M : ℝ) ^ 2 • pairQuad Q (G a b))) ∧
        (∀ r s, a ≠ b → ShareVertex (t.vert a) (t.vert b) r s →
          value = some ((1 / 2 ^ M : ℝ) ^ 2 • pairQuad Q (transformed4 (rotated r s (G a b))))) ∧
        (∀ r s, a ≠ b → ShareEdge (t.vert a) (t.vert b) r s →
          value = some ((1 / 2 ^ M : ℝ) ^ 2 • pairQuad Q (transformed3 (rotated r s (G a b))))) := by
  obtain ⟨t, h1, B, h2, h3⟩ := C44_compare near corner P M hP hc F hw junk B0
  obtain ⟨t', g1, g2, -⟩ := tree_facts (K := ℝ) near corner P M hP
  obtain rfl : t' = t := Option.some.inj (g1.symm.trans h1)
  refine ⟨t', h1, B, h2, ?_⟩
  intro a b ha hb hdeg Q value
  have lv : t'.level a = M := by
    obtain ⟨_, e, _⟩ := g2 M le_rfl a (mem_leaves.2 ha)
    rw [e]; exact ha.2.1
  have hh : getH t' a = 1 / 2 ^ M := by unfold getH; rw [lv]
  obtain ⟨c1, c2, c3, c4⟩ := h3 a b ha hb
  have unf : value = evaluateBilinearForm order p t' B ev surf GS ffq a b := rfl
  refine ⟨?_, ?_, ?_, ?_⟩
  · intro hab
    subst hab
    have e := c1 rfl
    rw [unf, evaluateBilinearForm]
    simp only [lv, if_pos hdeg, hh]
    rw [e]
    simp only
    rw [C45_identical (hev a a)]
    simp only [Q, e]
  · intro hab hn
    have e := c2 hab hn
    rw [unf, evaluateBilinearForm]
    simp only [lv, if_pos hdeg, hh]
    simp only [e] at hdeg ⊢
    split_ifs with hf
    · rw [(C45_regular (hev a b) (1 / 2 ^ M) _).2 _ _ fun k hk => ?_]
      · simp only [Q, e]
      · rw [hf] at hk ⊢
        exact ⟨hff a ha k hk, hff b hb k hk⟩
    · rw [(C45_regular (hev a b) (1 / 2 ^ M) _).1]
      simp only [Q, e]
  · intro r s hab hv
    have e := (c3 r s hab hv).1
    rw [unf, evaluateBilinearForm]
    simp only [lv, if_pos hdeg, hh]
    simp only [e] at hdeg ⊢
    rw [C45_vertex (hev a b)]
    simp only [Q, e]
  · intro r s hab hv
    have e := (c4 r s hab hv).1
    rw [unf, evaluateBilinearForm]
    simp only [lv, if_pos hdeg, hh]
    simp only [e] at hdeg ⊢
    rw [C45_edge (hev a b)]
    simp only [Q, e]

end compare

/-- C45: the far field quadrature nodes: the table has one row per element, and row `id` holds the mapped nodes of the element
with this number, with the weights times the mesh width. -/
theorem C45_farfield_nodes {K V SP : Type} [Field K] [CharZero K] (near : V → V → Bool) (corner : Nat → Nat → V) (P M : Nat) (hP : 0 < P)
    (surf : Addr → K × K → K → SP) (Q : Cubature K) :
    ∃ t : Mesh.Tree K, initElementTree near corner P M = some t ∧ ∃ rows, computeFfieldQnodes t surf Q = some rows ∧
      rows.length = P * 4 ^ M ∧ ∀ a, IsNode P M a → ∃ row, rows[t.id a]? = some row ∧ row.length = Q.size ∧
        ∀ k < Q.size, row[k]? = some (some (surf a (Q.xi k) (1 / 2 ^ M * Q.w k))) := by
  obtain ⟨t, h1, h2, h3, h4, h5, h6, h7⟩ := tree_facts (K := K) near corner P M hP
  refine ⟨t, h1, ?_⟩
  have hel := elements_eq t P M hP h3 h6
  have hid : ∀ a, a ∈ leaves P M → t.id a = pathId a.1 a.2 ∧ t.level a = M := by
    intro a ha
    obtain ⟨e1, e2, _⟩ := h2 M le_rfl a ha
    exact ⟨e1, by rw [e2]; exact (mem_leaves.1 ha).2.1⟩
  let row : Addr → List (Option SP) := fun a => (List.range Q.size).map fun k => some (surf a (Q.xi k) (1 / 2 ^ M * Q.w k))
  have step : ∀ (v : List (List (Option SP))) (a : Addr), t.id a = v.length →
      ffieldStep t (1 / 2 ^ M) surf Q v a = some (v ++ [row a]) := by
    intro v a hv
    unfold ffieldStep
    simp only [hv]
    have gen : ∀ n ≤ Q.size, (List.range n).foldlM (fun (w : List (List (Option SP))) k => do
        let r ← w[v.length]?
        if k < r.length then some (w.set v.length (r.set k (some (surf a (Q.xi k) (1 / 2 ^ M * Q.w k))))) else none)
        (v ++ [List.replicate Q.size none]) =
        some (v ++ [((List.range n).map fun k => some (surf a (Q.xi k) (1 / 2 ^ M * Q.w k))) ++ List.replicate (Q.size - n) none]) := by
      intro n
      induction n with
      | zero => intro _; simp
      | succ n ih =>
        intro hn
        rw [List.range_succ, List.foldlM_append, ih (by omega)]
        simp only [Option.bind_eq_bind, Option.bind_some, List.foldlM_cons, List.foldlM_nil]
        rw [List.getElem?_append_right le_rfl]
        simp only [Nat.sub_self, List.getElem?_cons_zero, Option.bind_some, List.length_append, List.length_map,
          List.length_range, List.length_replicate]
        rw [if_pos (by omega)]
        simp only [Option.bind_some, Option.pure_def]
        congr 1
        rw [List.set_append_right _ _ le_rfl]
        simp only [Nat.sub_self, List.set_cons_zero, List.map_append, List.map_cons, List.map_nil]
        congr 2
        rw [List.set_append_right _ _ (by simp)]
        simp only [List.length_map, List.length_range, Nat.sub_self]
        rw [show Q.size - n = (Q.size - (n + 1)) + 1 by omega, List.replicate_succ, List.set_cons_zero]
        simp
    rw [gen Q.size le_rfl]
    simp [row]
  have loop : ∀ (B A : List Addr), leaves P M = A ++ B →
      B.foldlM (ffieldStep t (1 / 2 ^ M) surf Q) (A.map row) = some ((A ++ B).map row) := by
    intro B
    induction B with
    | nil => intro A _; simp
    | cons a B ih =>
      intro A h
      have ha : a ∈ leaves P M := by rw [h]; simp
      rw [List.foldlM_cons, step _ a (by rw [(hid a ha).1, List.length_map, ← index_leaves h])]
      simp only [Option.bind_eq_bind, Option.bind_some]
      have := ih (A ++ [a]) (by rw [h]; simp)
      simpa using this
  have hne : 0 < (leaves P M).length := by rw [leaves_length]; positivity
  have hf : (leaves P M)[0]? = some ((leaves P M)[0]) := List.getElem?_eq_getElem hne
  have hgetH : getH t ((leaves P M)[0]) = 1 / 2 ^ M := by
    unfold getH
    rw [(hid _ (List.getElem_mem hne)).2]
  refine ⟨(leaves P M).map row, ?_, by rw [List.length_map, leaves_length], ?_⟩
  · unfold computeFfieldQnodes
    rw [hel]
    simp only [Option.bind_eq_bind, Option.bind_some, hf, hgetH]
    exact loop (leaves P M) [] rfl
  · intro a ha
    have ha' := mem_leaves.2 ha
    obtain ⟨A, B, h⟩ := List.append_of_mem ha'
    refine ⟨row a, ?_, by simp [row], ?_⟩
    · rw [(hid a ha').1, ← index_leaves h, h, List.getElem?_map, List.getElem?_append_right le_rfl]
      simp
    · intro k hk
      simp [row, hk]

end Bembel.Props
