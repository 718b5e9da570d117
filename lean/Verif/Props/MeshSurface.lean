import Verif.Props.MeshTopo
import Verif.Props.Util
import Verif.Lemmas.MeshSurface
import Verif.Model.ElementTreeSurface
/-!
# Property theorems C22 (vertex numbers and surface points) and C24 (bounding balls)
-/

set_option linter.unusedSectionVars false

namespace Bembel.Props

open Bembel.Basis Bembel.Mesh Bembel.Util

section
variable {K : Type} [Field K] [LinearOrder K] [IsStrictOrderedRing K]
  {W : Type} (near : W → W → Bool) (corner : Nat → Nat → W)

/-- Surface point of element `a` at the local coordinate `x`. -/
def surf (F : Nat → K × K → W) (a : Addr) (x : K × K) : W :=
  F a.1 (((posX a.2 : K) + x.1) / 2 ^ a.2.length, ((posY a.2 : K) + x.2) / 2 ^ a.2.length)

theorem surf_son (F : Nat → K × K → W) (a : Addr) (i : Nat) (hi : i < 4) (x : K × K) :
    surf F (son a i) x = surf F a (half (cornerPoint i) x) := by
  unfold surf son
  congr 1
  simp only [posX, posY, List.length_cons, half]
  have h2 : (2 : K) ^ a.2.length ≠ 0 := by positivity
  rcases lt4 hi with rfl | rfl | rfl | rfl <;> simp [cornerPoint, edgePoint, pow_succ] <;>
    (try constructor) <;> field_simp <;> ring

/-- On every level, equal vertex numbers and edges belong to equal surface points and curves. -/
theorem glued_levels (F : Nat → K × K → W) {t : Mesh.Tree K} {N : Nat → Nat} {P M : Nat}
    (h1 : ∀ j < M, LevelOK t.vert t.adj P j (N j) (N (j + 1)))
    (hv : ∀ i j i' j', i < P → i' < P → j < 4 → j' < 4 →
      (t.vert (i, []) j = t.vert (i', []) j' ↔ corner i j = corner i' j'))
    (hd : ∀ p < P, ∀ i < 4, ∀ j < 4, corner p i = corner p j → i = j)
    (hw : Watertight corner P F) : ∀ l ≤ M, Glued t.vert (· ∈ leaves P l) (surf F) := by
  intro l
  induction l with
  | zero =>
    intro _
    have h0 : ∀ p x, surf F (p, []) x = F p x := by
      intro p x; unfold surf; simp [posX, posY]
    have m4 : ∀ i, (i + 1) % 4 < 4 := fun i => Nat.mod_lt _ (by omega)
    refine ⟨?_, ?_, ?_⟩
    · intro a b i j ha hb hi hj h
      obtain ⟨p, hp, rfl⟩ := mem_leaves_zero.1 ha
      obtain ⟨q, hq, rfl⟩ := mem_leaves_zero.1 hb
      rw [h0, h0, hw.corners p hp i hi, hw.corners q hq j hj]
      exact (hv p i q j hp hq hi hj).1 h
    · intro a b i j ha hb hi hj h h' s s0 s1
      obtain ⟨p, hp, rfl⟩ := mem_leaves_zero.1 ha
      obtain ⟨q, hq, rfl⟩ := mem_leaves_zero.1 hb
      rw [hv p i q j hp hq hi hj] at h
      rw [hv p _ q _ hp hq (m4 i) (m4 j)] at h'
      rw [h0, h0]
      by_cases hpq : p = q
      · subst hpq; rw [hd p hp i hi j hj h]
      · exact hw.same p hp q hq hpq i hi j hj h h' s s0 s1
    · intro a b i j ha hb hi hj h h' s s0 s1
      obtain ⟨p, hp, rfl⟩ := mem_leaves_zero.1 ha
      obtain ⟨q, hq, rfl⟩ := mem_leaves_zero.1 hb
      rw [hv p i q _ hp hq hi (m4 j)] at h
      rw [hv p _ q _ hp hq (m4 i) hj] at h'
      rw [h0, h0]
      by_cases hpq : p = q
      · subst hpq
        have e1 := hd p hp i hi _ (m4 j) h
        have e2 := hd p hp _ (m4 i) j hj h'
        omega
      · exact hw.opposite p hp q hq hpq i hi j hj h h' s s0 s1
  | succ l ih =>
    intro hl
    have o := h1 l (by omega)
    have g := glued_sons o.conf o.refd (fun a _ i hi x => surf_son F a i hi x) (ih (by omega))
    have conv : ∀ {a}, a ∈ leaves P (l + 1) → SonsOf (· ∈ leaves P l) a := fun h => mem_leaves_succ.1 h
    exact ⟨fun a b i j ha hb => g.pts a b i j (conv ha) (conv hb), fun a b i j ha hb => g.same a b i j (conv ha) (conv hb),
      fun a b i j ha hb => g.opp a b i j (conv ha) (conv hb)⟩

/-- Surface point with the lower left corner and mesh width stored in the tree. -/
theorem surf_eq (F : Nat → K × K → W) (t : Mesh.Tree K) (a : Addr) (h : GoodNode t a) (x : K × K) :
    surf F a x = F (t.patch a) ((t.llc a).1 + getH t a * x.1, (t.llc a).2 + getH t a * x.2) := by
  obtain ⟨_, h2, h3, h4⟩ := h
  unfold surf getH
  rw [h2, h3, h4]
  have : (2 : K) ^ a.2.length ≠ 0 := by positivity
  congr 2 <;> field_simp

/-- C22, geometry: for patch parametrisations that fit together, elements of the same level that reference the same
vertex number have the same surface point there, and if they share an edge (two vertex numbers) they have the same
curve on the surface along it. -/
theorem C22_same_point (P M : Nat) (hP : 0 < P) (hc : ConformingPatches near corner P) (F : Nat → K × K → W)
    (hw : Watertight corner P F) :
    ∃ t : Mesh.Tree K, initElementTree near corner P M = some t ∧ ∀ l ≤ M, ∀ a b, IsNode P l a → IsNode P l b →
      let point := fun (a : Addr) (x : K × K) =>
        F (t.patch a) ((t.llc a).1 + getH t a * x.1, (t.llc a).2 + getH t a * x.2)
      ∀ i < 4, ∀ j < 4,
        (t.vert a i = t.vert b j → point a (cornerPoint i) = point b (cornerPoint j)) ∧
        (t.vert a i = t.vert b j → t.vert a ((i + 1) % 4) = t.vert b ((j + 1) % 4) → ∀ s : K, 0 ≤ s → s ≤ 1 →
          point a (edgePoint i s) = point b (edgePoint j s)) ∧
        (t.vert a i = t.vert b ((j + 1) % 4) → t.vert a ((i + 1) % 4) = t.vert b j → ∀ s : K, 0 ≤ s → s ≤ 1 →
          point a (edgePoint i s) = point b (edgePoint j (1 - s))) := by
  obtain ⟨t, N, h1, h2, h3, h4, h5, h6, h7⟩ := topo_facts (K := K) near corner P M hP hc
  obtain ⟨t', g1, g2, _⟩ := tree_facts (K := K) near corner P M hP
  obtain rfl : t' = t := Option.some.inj (g1.symm.trans h1)
  refine ⟨t', h1, ?_⟩
  intro l hl a b ha hb point i hi j hj
  have g := glued_levels corner F h3 h6 hc.distinct hw l hl
  have ha' : a ∈ leaves P l := mem_leaves.2 ha
  have hb' : b ∈ leaves P l := mem_leaves.2 hb
  have ea : ∀ x, point a x = surf F a x := fun x => (surf_eq F t' a (g2 l hl a ha') x).symm
  have eb : ∀ x, point b x = surf F b x := fun x => (surf_eq F t' b (g2 l hl b hb') x).symm
  refine ⟨?_, ?_, ?_⟩
  · intro h; rw [ea, eb]; exact g.pts a b i j ha' hb' hi hj h
  · intro h h' s s0 s1; rw [ea, eb]; exact g.same a b i j ha' hb' hi hj h h' s s0 s1
  · intro h h' s s0 s1; rw [ea, eb]; exact g.opp a b i j ha' hb' hi hj h h' s s0 s1

/-! ## the point list -/

theorem vertexParam_eq (t : Mesh.Tree K) (a : Addr) (j : Nat) (hj : j < 4) : vertexParam t a j =
    ((t.llc a).1 + getH t a * (cornerPoint j : K × K).1, (t.llc a).2 + getH t a * (cornerPoint j : K × K).2) := by
  rcases lt4 hj with rfl | rfl | rfl | rfl <;> simp [vertexParam, cornerPoint, edgePoint]

/-- Writing a consistent family of values. -/
theorem pointList_fold (t : Mesh.Tree K) (F : Nat → K × K → W) (L : List (Addr × Nat))
    (hlt : ∀ x ∈ L, t.vert x.1 x.2 < t.nPoints)
    (hc : ∀ x ∈ L, ∀ y ∈ L, t.vert x.1 x.2 = t.vert y.1 y.2 →
      F (t.patch x.1) (vertexParam t x.1 x.2) = F (t.patch y.1) (vertexParam t y.1 y.2)) (st : (Nat → W) × (Nat → Nat)) :
    ∃ st', L.foldlM (fun s x => pointListStep t F x.1 s x.2) st = some st' ∧
      (∀ x ∈ L, st'.1 (t.vert x.1 x.2) = F (t.patch x.1) (vertexParam t x.1 x.2)) ∧
      (∀ n, n ∉ L.map (fun x => t.vert x.1 x.2) → st'.1 n = st.1 n) ∧
      ∀ n, st'.2 n = st.2 n + (L.map (fun x => t.vert x.1 x.2)).count n := by
  induction L generalizing st with
  | nil => exact ⟨st, rfl, by simp, by simp, by simp⟩
  | cons x L ih =>
    have hx := hlt x (by simp)
    obtain ⟨st', e1, e2, e3, e4⟩ := ih (fun y hy => hlt y (by simp [hy])) (fun y hy z hz => hc y (by simp [hy]) z (by simp [hz]))
      (upd st.1 (t.vert x.1 x.2) (F (t.patch x.1) (vertexParam t x.1 x.2)),
        upd st.2 (t.vert x.1 x.2) (st.2 (t.vert x.1 x.2) + 1))
    refine ⟨st', ?_, ?_, ?_, ?_⟩
    · rw [List.foldlM_cons]
      have : pointListStep t F x.1 st x.2 = some (upd st.1 (t.vert x.1 x.2) (F (t.patch x.1) (vertexParam t x.1 x.2)),
          upd st.2 (t.vert x.1 x.2) (st.2 (t.vert x.1 x.2) + 1)) := if_pos hx
      rw [this]
      exact e1
    · intro y hy
      by_cases hyL : y ∈ L
      · exact e2 y hyL
      · have hyx : y = x := by rcases List.mem_cons.1 hy with h | h; exacts [h, absurd h hyL]
        subst hyx
        by_cases hm : t.vert y.1 y.2 ∈ L.map (fun x => t.vert x.1 x.2)
        · obtain ⟨z, hz, hzz⟩ := List.mem_map.1 hm
          rw [← hzz, e2 z hz]
          exact hc z (by simp [hz]) y (by simp) hzz
        · rw [e3 _ hm]; simp [upd]
    · intro n hn
      rw [List.map_cons, List.mem_cons, not_or] at hn
      rw [e3 n hn.2]
      simp only [upd]
      rw [if_neg hn.1]
    · intro n
      rw [e4, List.map_cons, List.count_cons]
      simp only [upd]
      by_cases h : n = t.vert x.1 x.2
      · rw [if_pos h, h]; simp; omega
      · rw [if_neg h, if_neg (by simpa using fun hh => h hh.symm), Nat.add_zero]

theorem foldlM_pairs {σ : Type} (f : Addr → σ → Nat → Option σ) (L : List Addr) (s : σ) :
    L.foldlM (fun st a => (List.range 4).foldlM (f a) st) s =
    (L.flatMap fun a => (List.range 4).map fun j => (a, j)).foldlM (fun s x => f x.1 s x.2) s := by
  induction L generalizing s with
  | nil => rfl
  | cons a L ih =>
    rw [List.foldlM_cons, List.flatMap_cons, List.foldlM_append, List.foldlM_map]
    congr 1
    funext s'
    exact ih s'

theorem pointList_facts {P M : Nat} {t : Mesh.Tree K} {N : Nat → Nat} (F : Nat → K × K → W)
    (hel : elements t = some (leaves P M)) (hN : t.nPoints = N M) (c : Conf t.vert (· ∈ leaves P M) (N M))
    (g : Glued t.vert (· ∈ leaves P M) (surf F)) (good : ∀ a ∈ leaves P M, GoodNode t a) (junk : Nat → W) :
    ∃ pts cnt, generatePointList t F junk = some (pts, cnt) ∧
      (∀ a ∈ leaves P M, ∀ j < 4, pts (t.vert a j) = surf F a (cornerPoint j)) ∧
      ∀ n, cnt n = ((leaves P M).flatMap fun a => (List.range 4).map (t.vert a)).count n := by
  have hmem : ∀ x, x ∈ ((leaves P M).flatMap fun a => (List.range 4).map fun j => (a, j)) ↔
      x.1 ∈ leaves P M ∧ x.2 < 4 := by
    intro x
    simp only [List.mem_flatMap, List.mem_map, List.mem_range]
    constructor
    · rintro ⟨a, ha, j, hj, rfl⟩; exact ⟨ha, hj⟩
    · rintro ⟨h1, h2⟩; exact ⟨x.1, h1, x.2, h2, rfl⟩
  have val : ∀ a ∈ leaves P M, ∀ j < 4, F (t.patch a) (vertexParam t a j) = surf F a (cornerPoint j) := by
    intro a ha j hj
    rw [surf_eq F t a (good a ha), vertexParam_eq t a j hj]
  obtain ⟨st', e1, e2, e3, e4⟩ := pointList_fold t F ((leaves P M).flatMap fun a => (List.range 4).map fun j => (a, j))
    (by
      intro x hx
      obtain ⟨h1, h2⟩ := (hmem x).1 hx
      rw [hN]; exact c.lt _ h1 _ h2)
    (by
      intro x hx y hy h
      obtain ⟨h1, h2⟩ := (hmem x).1 hx
      obtain ⟨h3, h4⟩ := (hmem y).1 hy
      rw [val _ h1 _ h2, val _ h3 _ h4]
      exact g.pts _ _ _ _ h1 h3 h2 h4 h) (junk, fun _ => 0)
  refine ⟨st'.1, st'.2, ?_, ?_, ?_⟩
  · unfold generatePointList
    rw [hel]
    show (leaves P M).foldlM _ _ = _
    rw [foldlM_pairs, e1]
  · intro a ha j hj
    have := e2 (a, j) ((hmem _).2 ⟨ha, hj⟩)
    simp only at this
    rw [this, val a ha j hj]
  · intro n
    rw [e4]
    simp only [Nat.zero_add]
    congr 1
    rw [List.map_flatMap]
    simp only [List.map_map]
    rfl

/-- C22, point list: the point list has a column for every vertex number used; the column of vertex `j` of element
`a` is the surface point at corner `j` of `a` (whichever element wrote it last), every column is written, and the
counter of a vertex is the number of element corners with that number. -/
theorem C22_point_list (P M : Nat) (hP : 0 < P) (hc : ConformingPatches near corner P) (F : Nat → K × K → W)
    (hw : Watertight corner P F) (junk : Nat → W) :
    ∃ t : Mesh.Tree K, initElementTree near corner P M = some t ∧ ∃ pts cnt,
      generatePointList t F junk = some (pts, cnt) ∧
      (∀ a, IsNode P M a → ∀ j < 4, t.vert a j < t.nPoints ∧ pts (t.vert a j) = F (t.patch a)
        ((t.llc a).1 + getH t a * (cornerPoint j : K × K).1, (t.llc a).2 + getH t a * (cornerPoint j : K × K).2)) ∧
      (∀ n < t.nPoints, ∃ a j, IsNode P M a ∧ j < 4 ∧ t.vert a j = n) ∧
      ∃ els, generateElementList t = some els ∧ ∀ n, cnt n = els.flatten.count n := by
  obtain ⟨t, N, h1, h2, h3, h4, h5, h6, h7⟩ := topo_facts (K := K) near corner P M hP hc
  obtain ⟨t', g1, g2, g3, g4, g5, g6, g7⟩ := tree_facts (K := K) near corner P M hP
  obtain rfl : t' = t := Option.some.inj (g1.symm.trans h1)
  obtain ⟨t'', N', k1, k2, k3, k4⟩ := C22_count (K := K) near corner P M hP hc
  obtain rfl : t'' = t' := Option.some.inj (k1.symm.trans h1)
  have hel := elements_eq t'' P M hP g3 g6
  have good := g2 M le_rfl
  obtain ⟨pts, cnt, e1, e2, e3⟩ := pointList_facts F hel h2 h4
    (glued_levels corner F h3 h6 hc.distinct hw M le_rfl) good junk
  refine ⟨t'', h1, pts, cnt, e1, ?_, ?_, ?_⟩
  · intro a ha j hj
    have ha' : a ∈ leaves P M := mem_leaves.2 ha
    refine ⟨by rw [h2]; exact h4.lt a ha' j hj, ?_⟩
    rw [e2 a ha' j hj, surf_eq F t'' a (good a ha')]
  · intro n hn
    have : n ∈ {n | n < N' M} := by rw [k2] at hn; exact hn
    rw [← k3 M le_rfl] at this
    obtain ⟨a, j, ha, hj, e⟩ := this
    exact ⟨a, j, ha, hj, e.symm⟩
  · refine ⟨(leaves P M).map fun a => (List.range 4).map (t''.vert a), ?_, ?_⟩
    · unfold generateElementList; rw [hel]; rfl
    · intro n; rw [e3 n, List.flatMap_def]

end

/-! ## C24 -/

section
variable {W : Type} [NormedAddCommGroup W] [NormedSpace ℝ W]

theorem points_center_rad (b : Ball W) (h : 0 ≤ b.rad) : b.mid ∈ Ball.points b := by
  unfold Ball.points; simpa using h

theorem encloseFour_spec (b0 b1 b2 b3 : Ball W) (h0 : 0 ≤ b0.rad) (h1 : 0 ≤ b1.rad) (h2 : 0 ≤ b2.rad)
    (h3 : 0 ≤ b3.rad) : ∃ b, encloseFour b0 b1 b2 b3 = some b ∧ 0 ≤ b.rad ∧ Ball.points b0 ⊆ Ball.points b ∧
    Ball.points b1 ⊆ Ball.points b ∧ Ball.points b2 ⊆ Ball.points b ∧ Ball.points b3 ⊆ Ball.points b := by
  obtain ⟨x, x1, x2, x3⟩ := C18_contains b0 b2 h0 h2
  obtain ⟨y, y1, y2, y3⟩ := C18_contains b1 b3 h1 h3
  have hx := (C18_radius b0 b2 x x1).1
  have hy := (C18_radius b1 b3 y y1).1
  obtain ⟨z, z1, z2, z3⟩ := C18_contains x y (h0.trans hx) (h1.trans hy)
  have hz := (C18_radius x y z z1).1
  refine ⟨z, ?_, (h0.trans hx).trans hz, x2.trans z2, y2.trans z3, x3.trans z2, y3.trans z3⟩
  unfold encloseFour
  rw [x1, y1]
  exact z1

/-- `b` is in the subtree of `a` -/
def Sub (a b : Addr) : Prop := b.1 = a.1 ∧ ∃ w, b.2 = w ++ a.2

theorem sub_refl (a : Addr) : Sub a a := ⟨rfl, [], rfl⟩

theorem sub_son (a b : Addr) (i : Nat) (h : Sub (son a i) b) : Sub a b := by
  obtain ⟨h1, w, h2⟩ := h
  exact ⟨h1, w ++ [i], by rw [h2]; simp [son]⟩

theorem sub_of_below {a b : Addr} {k : Nat} (h : b ∈ below a k) : Sub a b := by
  obtain ⟨h1, l, h2, _⟩ := mem_below.1 h
  exact ⟨h1, l, h2⟩

theorem sub_disjoint {a b c : Addr} (hl : a.2.length = b.2.length) (h1 : Sub a c) (h2 : Sub b c) : a = b := by
  obtain ⟨x1, w, x2⟩ := h1
  obtain ⟨y1, v, y2⟩ := h2
  refine Prod.ext (x1.symm.trans y1) ?_
  exact (List.append_inj' (x2.symm.trans y2) hl).2

/-- what is known about the balls below `a` -/
def BallsOK (vert : Addr → Nat → Nat) (pts : Nat → W) (k : Nat) (a : Addr) (B : Addr → Ball W) : Prop :=
  ∀ j ≤ k, ∀ b ∈ below a j, 0 ≤ (B b).rad ∧
    (∀ c ∈ below b (k - j), ∀ i < 4, pts (vert c i) ∈ Ball.points (B b)) ∧
    (j < k → ∀ i < 4, Ball.points (B (son b i)) ⊆ Ball.points (B b))

theorem ballsOK_congr {vert : Addr → Nat → Nat} {pts : Nat → W} {k : Nat} {a : Addr} {B B' : Addr → Ball W}
    (h : BallsOK vert pts k a B) (e : ∀ b, Sub a b → B' b = B b) : BallsOK vert pts k a B' := by
  intro j hj b hb
  have hs := sub_of_below hb
  have hsi : ∀ i, Sub a (son b i) := by
    intro i
    obtain ⟨h1, w, h2⟩ := hs
    exact ⟨h1, i :: w, by simp [son, h2]⟩
  rw [e b hs]
  refine ⟨(h j hj b hb).1, (h j hj b hb).2.1, ?_⟩
  intro hjk i hi
  rw [e _ (hsi i)]
  exact (h j hj b hb).2.2 hjk i hi

theorem fold_balls (vert : Addr → Nat → Nat) (pts : Nat → W) (k n : Nat) (f : Addr → (Addr → Ball W) → Option (Addr → Ball W))
    (L : List Addr) (hL : L.Nodup) (hlen : ∀ a ∈ L, a.2.length = n)
    (hf : ∀ a ∈ L, ∀ B, ∃ B', f a B = some B' ∧ (∀ b, ¬ Sub a b → B' b = B b) ∧ BallsOK vert pts k a B')
    (B : Addr → Ball W) :
    ∃ B', L.foldlM (fun B a => f a B) B = some B' ∧ (∀ b, (∀ a ∈ L, ¬ Sub a b) → B' b = B b) ∧
      ∀ a ∈ L, BallsOK vert pts k a B' := by
  induction L generalizing B with
  | nil => exact ⟨B, rfl, by simp, by simp⟩
  | cons a L ih =>
    obtain ⟨B1, e1, e2, e3⟩ := hf a (by simp) B
    obtain ⟨B2, d1, d2, d3⟩ := ih (List.nodup_cons.1 hL).2 (fun b hb => hlen b (by simp [hb]))
      (fun b hb => hf b (by simp [hb])) B1
    refine ⟨B2, ?_, ?_, ?_⟩
    · rw [List.foldlM_cons, e1]; exact d1
    · intro b hb
      rw [d2 b (fun c hc => hb c (by simp [hc])), e2 b (hb a (by simp))]
    · intro b hb
      rcases List.mem_cons.1 hb with rfl | hb
      · refine ballsOK_congr e3 ?_
        intro c hc
        apply d2
        intro d hd hdc
        have := sub_disjoint (by rw [hlen b (by simp), hlen d (by simp [hd])]) hc hdc
        subst this
        exact (List.nodup_cons.1 hL).1 hd
      · exact d3 b hb

theorem encloseRec_spec (refined : Addr → Bool) (vert : Addr → Nat → Nat) (pts : Nat → W) (k : Nat) :
    ∀ fuel a B, k < fuel → (∀ j < k, ∀ b ∈ below a j, refined b = true) → (∀ b ∈ below a k, refined b = false) →
    ∃ B', encloseRec refined vert pts fuel a B = some B' ∧ (∀ b, ¬ Sub a b → B' b = B b) ∧
      BallsOK vert pts k a B' := by
  induction k with
  | zero =>
    intro fuel a B hf _ h2
    obtain ⟨f, rfl⟩ : ∃ f, fuel = f + 1 := ⟨fuel - 1, by omega⟩
    obtain ⟨b, b1, b2, b3, b4, b5, b6⟩ := encloseFour_spec (W := W) ⟨pts (vert a 0), 0⟩ ⟨pts (vert a 1), 0⟩
      ⟨pts (vert a 2), 0⟩ ⟨pts (vert a 3), 0⟩ le_rfl le_rfl le_rfl le_rfl
    refine ⟨updA B a b, ?_, ?_, ?_⟩
    · unfold encloseRec
      rw [if_neg (by rw [h2 a (by simp [below])]; simp), b1]; rfl
    · intro c hc
      unfold updA
      rw [if_neg (fun h : c = a => hc (h ▸ sub_refl a))]
    · intro j hj c hc
      obtain rfl : j = 0 := by omega
      obtain rfl : c = a := by simpa [below] using hc
      have : updA B c b c = b := by simp [updA]
      rw [this]
      refine ⟨b2, ?_, by omega⟩
      intro d hd i hi
      obtain rfl : d = c := by simpa [below] using hd
      rcases lt4 hi with rfl | rfl | rfl | rfl
      · exact b3 (points_center_rad _ le_rfl)
      · exact b4 (points_center_rad _ le_rfl)
      · exact b5 (points_center_rad _ le_rfl)
      · exact b6 (points_center_rad _ le_rfl)
  | succ k ih =>
    intro fuel a B hf h1 h2
    obtain ⟨f, rfl⟩ : ∃ f, fuel = f + 1 := ⟨fuel - 1, by omega⟩
    have hsub : ∀ s ∈ sons a, ∀ j b, b ∈ below s j → b ∈ below a (j + 1) := by
      intro s hs j b hb
      rw [below_succ, List.mem_flatMap]
      exact ⟨s, hs, hb⟩
    obtain ⟨B1, e1, e2, e3⟩ := fold_balls vert pts k (a.2.length + 1) (fun s B => encloseRec refined vert pts f s B)
      (sons a) (sons_nodup a) (by intro s hs; obtain ⟨i, _, rfl⟩ := mem_sons.1 hs; rfl)
      (by
        intro s hs B
        exact ih f s B (by omega) (fun j hj b hb => h1 (j + 1) (by omega) b (hsub s hs j b hb))
          (fun b hb => h2 b (hsub s hs k b hb))) B
    have hr : ∀ i < 4, 0 ≤ (B1 (son a i)).rad := by
      intro i hi
      exact (e3 (son a i) (mem_sons.2 ⟨i, hi, rfl⟩) 0 (by omega) (son a i) (by simp [below])).1
    obtain ⟨b, b1, b2, b3, b4, b5, b6⟩ := encloseFour_spec (B1 (son a 0)) (B1 (son a 1)) (B1 (son a 2)) (B1 (son a 3))
      (hr 0 (by omega)) (hr 1 (by omega)) (hr 2 (by omega)) (hr 3 (by omega))
    have hsubi : ∀ i < 4, Ball.points (B1 (son a i)) ⊆ Ball.points b := by
      intro i hi
      rcases lt4 hi with rfl | rfl | rfl | rfl <;> assumption
    refine ⟨updA B1 a b, ?_, ?_, ?_⟩
    · unfold encloseRec
      rw [if_pos (h1 0 (by omega) a (by simp [below]))]
      have : (List.range 4).foldlM (fun B i => encloseRec refined vert pts f (son a i) B) B = some B1 := by
        rw [← e1]; unfold sons; rw [List.foldlM_map]
      rw [this]
      show (encloseFour _ _ _ _ >>= fun b => some (updA B1 a b)) = _
      rw [b1]; rfl
    · intro c hc
      unfold updA
      rw [if_neg (fun h : c = a => hc (h ▸ sub_refl a))]
      apply e2
      intro s hs hsc
      obtain ⟨i, _, rfl⟩ := mem_sons.1 hs
      exact hc (sub_son a c i hsc)
    · have hneq : ∀ i c, Sub (son a i) c → c ≠ a := by
        rintro i c ⟨_, w, h⟩ rfl
        have := congrArg List.length h
        simp [son] at this
        omega
      have hsons : ∀ i < 4, BallsOK vert pts k (son a i) (updA B1 a b) := by
        intro i hi
        refine ballsOK_congr (e3 (son a i) (mem_sons.2 ⟨i, hi, rfl⟩)) ?_
        intro c hc
        unfold updA
        rw [if_neg (hneq i c hc)]
      have ha : updA B1 a b a = b := by simp [updA]
      have hs : ∀ i, updA B1 a b (son a i) = B1 (son a i) := by
        intro i; unfold updA; rw [if_neg (son_ne a i)]
      intro j hj c hc
      cases j with
      | zero =>
        obtain rfl : c = a := by simpa [below] using hc
        rw [ha]
        refine ⟨b2, ?_, fun _ i hi => by rw [hs i]; exact hsubi i hi⟩
        intro d hd i hi
        rw [Nat.sub_zero, below_succ, List.mem_flatMap] at hd
        obtain ⟨s, hss, hd⟩ := hd
        obtain ⟨m, hm, rfl⟩ := mem_sons.1 hss
        exact hsubi m hm ((e3 (son c m) hss 0 (by omega) (son c m) (by simp [below])).2.1 d (by simpa using hd) i hi)
      | succ j =>
        rw [below_succ, List.mem_flatMap] at hc
        obtain ⟨s, hss, hc⟩ := hc
        obtain ⟨m, hm, rfl⟩ := mem_sons.1 hss
        have := hsons m hm j (by omega) c hc
        rw [show k + 1 - (j + 1) = k - j by omega]
        exact ⟨this.1, this.2.1, fun h => this.2.2 (by omega)⟩

/-- C24: the bounding balls are computed without division by zero; the ball of every cluster of every level has a
non-negative radius, contains the surface points at the corners of all elements below the cluster, and contains the
balls of its sons. -/
theorem C24_balls (near : W → W → Bool) (corner : Nat → Nat → W) (P M : Nat) (hP : 0 < P)
    (hc : ConformingPatches near corner P) (F : Nat → ℝ × ℝ → W) (hw : Watertight corner P F) (junk : Nat → W)
    (B0 : Addr → Ball W) :
    ∃ t : Mesh.Tree ℝ, initElementTree near corner P M = some t ∧ ∃ B, computeElementEnclosings t F junk B0 = some B ∧
      ∀ l ≤ M, ∀ a, IsNode P l a → 0 ≤ (B a).rad ∧
        (∀ b, IsNode P M b → b.1 = a.1 → (∃ w, b.2 = w ++ a.2) → ∀ j < 4,
          ‖F (t.patch b) ((t.llc b).1 + getH t b * (cornerPoint j : ℝ × ℝ).1,
            (t.llc b).2 + getH t b * (cornerPoint j : ℝ × ℝ).2) - (B a).mid‖ ≤ (B a).rad) ∧
        (l < M → ∀ i < 4, ∀ x, ‖x - (B (son a i)).mid‖ ≤ (B (son a i)).rad → ‖x - (B a).mid‖ ≤ (B a).rad) := by
  obtain ⟨t, N, h1, h2, h3, h4, h5, h6, h7⟩ := topo_facts (K := ℝ) near corner P M hP hc
  obtain ⟨t', g1, g2, g3, g4, g5, g6, g7⟩ := tree_facts (K := ℝ) near corner P M hP
  obtain rfl : t' = t := Option.some.inj (g1.symm.trans h1)
  have hel := elements_eq t' P M hP g3 g6
  have good := g2 M le_rfl
  obtain ⟨pts, cnt, e1, e2, e3⟩ := pointList_facts F hel h2 h4
    (glued_levels corner F h3 h6 hc.distinct hw M le_rfl) good junk
  have hbl : ∀ p < P, ∀ j b, b ∈ below (p, []) j → b ∈ leaves P j := by
    intro p hp j b hb
    unfold leaves
    rw [List.mem_flatMap]
    exact ⟨p, List.mem_range.2 hp, hb⟩
  obtain ⟨B, b1, b2, b3⟩ := fold_balls t'.vert pts M 0
    (fun a B => encloseRec t'.refined t'.vert pts (t'.maxLevel + 1) a B) (leaves P 0) (leaves_nodup P 0)
    (fun a ha => (mem_leaves.1 ha).2.1)
    (by
      intro a ha B
      obtain ⟨p, hp, rfl⟩ := mem_leaves_zero.1 ha
      refine encloseRec_spec t'.refined t'.vert pts M _ _ B (by omega) ?_ ?_
      · intro j hj b hb
        exact (g7 b).2 ⟨j, hj, hbl p hp j b hb⟩
      · intro b hb
        rw [Bool.eq_false_iff]
        intro h
        obtain ⟨j, hj, h⟩ := (g7 b).1 h
        have := (mem_leaves.1 h).2.1
        have := (mem_leaves.1 (hbl p hp M b hb)).2.1
        omega) B0
  refine ⟨t', h1, B, ?_, ?_⟩
  · unfold computeElementEnclosings
    rw [e1, g5]
    show (List.range P).foldlM _ _ = _
    rw [← b1, leaves_zero, List.foldlM_map]
  · intro l hl a ha
    have hap : (a.1, []) ∈ leaves P 0 := mem_leaves_zero.2 ⟨a.1, ha.1, rfl⟩
    have hab : a ∈ below (a.1, []) l := mem_below.2 ⟨rfl, a.2, by simp, ha.2.1, ha.2.2⟩
    obtain ⟨r1, r2, r3⟩ := b3 _ hap l hl a hab
    refine ⟨r1, ?_, r3⟩
    rintro b hb hb1 ⟨w, hb2⟩ j hj
    have hbl : b ∈ leaves P M := mem_leaves.2 hb
    have hbb : b ∈ below a (M - l) := by
      refine mem_below.2 ⟨hb1, w, hb2, ?_, ?_⟩
      · have := congrArg List.length hb2
        rw [List.length_append, hb.2.1, ha.2.1] at this
        omega
      · intro x hx; exact hb.2.2 x (by rw [hb2]; simp [hx])
    have := r2 b hbb j hj
    rw [e2 b hbl j hj, surf_eq F t' b (good b hbl)] at this
    exact this

end

end Bembel.Props
