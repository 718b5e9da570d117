import Verif.Props.Separation
import Verif.Props.PairClass
import Verif.Props.MeshGrid
/-!
# C22, C89: vertex numbers are points; where elements of an embedded surface meet
-/

namespace Bembel.Props
open Finset Mesh H2 Spec Util

namespace Smooth

/-- A cell that contains a point of edge `i` of the unit square contains it on its own edge `i`. -/
theorem cell_edge' (N X Y : Nat) (hX : X < N) (hY : Y < N) (y : ℝ × ℝ) (hy : ClosedSquare y) (i : Nat) (hi : i < 4) (x : ℝ)
    (h : edgePoint i x = cellPt N X Y y) : ∃ k : Nat, k + 1 ≤ N ∧ (k : ℝ) ≤ N * x ∧ N * x ≤ k + 1 ∧ y = edgePoint i (N * x - k) ∧
      k = (if i = 0 then X else if i = 1 then Y else if i = 2 then N - 1 - X else N - 1 - Y) ∧
      ((i = 0 ∧ Y = 0) ∨ (i = 1 ∧ X + 1 = N) ∨ (i = 2 ∧ Y + 1 = N) ∨ (i = 3 ∧ X = 0)) := by
  have hN' : (0 : ℝ) < N := by exact_mod_cast (by omega : 0 < N)
  have h1 := congrArg Prod.fst h
  have h2 := congrArg Prod.snd h
  obtain ⟨y0, y1, y2, y3⟩ := hy
  have hX0 : (0 : ℝ) ≤ X := Nat.cast_nonneg _
  have hY0 : (0 : ℝ) ≤ Y := Nat.cast_nonneg _
  have hX1 : (X : ℝ) + 1 ≤ N := by exact_mod_cast hX
  have hY1 : (Y : ℝ) + 1 ≤ N := by exact_mod_cast hY
  interval_cases i
  · simp only [cellPt, edgePoint, if_true] at h1 h2
    rw [eq_div_iff hN'.ne'] at h1 h2
    have hy0 : (Y : ℝ) = 0 := by linarith
    refine ⟨X, hX, by linarith, by linarith, Prod.ext ?_ ?_, by simp, Or.inl ⟨rfl, by exact_mod_cast hy0⟩⟩
    · simp only [edgePoint, if_true]; linarith
    · simp only [edgePoint, if_true]; linarith
  · simp only [cellPt, edgePoint, if_true, one_ne_zero, if_false] at h1 h2
    rw [eq_div_iff hN'.ne'] at h1 h2
    have hx1 : (X : ℝ) + 1 = N := by linarith
    refine ⟨Y, hY, by linarith, by linarith, Prod.ext ?_ ?_, by simp, Or.inr (Or.inl ⟨rfl, by exact_mod_cast hx1⟩)⟩
    · simp only [edgePoint, if_true, one_ne_zero, if_false]; linarith
    · simp only [edgePoint, if_true, one_ne_zero, if_false]; linarith
  · simp only [cellPt, edgePoint, if_true, if_false, OfNat.ofNat_ne_zero, OfNat.ofNat_ne_one] at h1 h2
    rw [eq_div_iff hN'.ne'] at h1 h2
    have hy1 : (Y : ℝ) + 1 = N := by linarith
    have hk : ((N - 1 - X : Nat) : ℝ) = N - 1 - X := by
      rw [Nat.cast_sub (by omega), Nat.cast_sub (by omega)]; simp
    refine ⟨N - 1 - X, by omega, by rw [hk]; linarith, by rw [hk]; linarith, Prod.ext ?_ ?_, by simp, Or.inr (Or.inr (Or.inl ⟨rfl, by exact_mod_cast hy1⟩))⟩
    · simp only [edgePoint, if_true, if_false, OfNat.ofNat_ne_zero, OfNat.ofNat_ne_one, hk]; linarith
    · simp only [edgePoint, if_true, if_false, OfNat.ofNat_ne_zero, OfNat.ofNat_ne_one]; linarith
  · simp only [cellPt, edgePoint, if_false, OfNat.ofNat_ne_zero, OfNat.ofNat_ne_one, show (3 : Nat) ≠ 2 by norm_num] at h1 h2
    rw [eq_div_iff hN'.ne'] at h1 h2
    have hx0 : (X : ℝ) = 0 := by linarith
    have hk : ((N - 1 - Y : Nat) : ℝ) = N - 1 - Y := by
      rw [Nat.cast_sub (by omega), Nat.cast_sub (by omega)]; simp
    refine ⟨N - 1 - Y, by omega, by rw [hk]; linarith, by rw [hk]; linarith, Prod.ext ?_ ?_, by simp, Or.inr (Or.inr (Or.inr ⟨rfl, by exact_mod_cast hx0⟩))⟩
    · simp only [edgePoint, if_false, OfNat.ofNat_ne_zero, OfNat.ofNat_ne_one, show (3 : Nat) ≠ 2 by norm_num]; linarith
    · simp only [edgePoint, if_false, OfNat.ofNat_ne_zero, OfNat.ofNat_ne_one, show (3 : Nat) ≠ 2 by norm_num, hk]; linarith

/-- The points of edge `i` of a cell at edge `i` of the unit square. -/
theorem cell_on_edge (N X Y : Nat) (hX : X < N) (hY : Y < N) (i : Nat)
    (h : (i = 0 ∧ Y = 0) ∨ (i = 1 ∧ X + 1 = N) ∨ (i = 2 ∧ Y + 1 = N) ∨ (i = 3 ∧ X = 0)) (u : ℝ) :
    cellPt N X Y (edgePoint i u) =
      edgePoint i ((((if i = 0 then X else if i = 1 then Y else if i = 2 then N - 1 - X else N - 1 - Y : Nat) : ℝ) + u) / N) := by
  have hN' : (N : ℝ) ≠ 0 := by exact_mod_cast (by omega : N ≠ 0)
  rcases h with ⟨rfl, h⟩ | ⟨rfl, h⟩ | ⟨rfl, h⟩ | ⟨rfl, h⟩
  · simp [cellPt, edgePoint, h]
  · have : (X : ℝ) + 1 = N := by exact_mod_cast h
    simp [cellPt, edgePoint, this, hN']
  · have : (Y : ℝ) + 1 = N := by exact_mod_cast h
    have hk : ((N - 1 - X : Nat) : ℝ) = N - 1 - X := by
      rw [Nat.cast_sub (by omega), Nat.cast_sub (by omega)]; simp
    refine Prod.ext ?_ ?_
    · simp [cellPt, edgePoint, hk]; field_simp; ring
    · simp [cellPt, edgePoint, this, hN']
  · have hk : ((N - 1 - Y : Nat) : ℝ) = N - 1 - Y := by
      rw [Nat.cast_sub (by omega), Nat.cast_sub (by omega)]; simp
    refine Prod.ext ?_ ?_
    · simp [cellPt, edgePoint, h]
    · simp [cellPt, edgePoint, hk]; field_simp; ring

/-- Corners of cells and grid points. -/
theorem cell_grid (N : Nat) (hN : 0 < N) (a b : Addr) (i j : Nat) (hi : i < 4) (hj : j < 4) :
    cellPt N (posX a.2) (posY a.2) (cornerPoint i) = cellPt N (posX b.2) (posY b.2) (cornerPoint j) ↔ gridPt a i = gridPt b j := by
  have hN' : (N : ℝ) ≠ 0 := by exact_mod_cast hN.ne'
  have c : ∀ i < 4, ((cornerPoint i : ℝ × ℝ)) = ((cornerX i : ℝ), (cornerY i : ℝ)) := by
    intro i hi
    interval_cases i <;> simp [cornerPoint, edgePoint, cornerX, cornerY]
  unfold cellPt gridPt
  rw [c i hi, c j hj, Prod.ext_iff, Prod.ext_iff]
  simp only [div_left_inj' hN']
  norm_cast

theorem corner_edge (i j : Nat) (hi : i < 4) (hj : j < 4) (u : ℝ) (h : (cornerPoint j : ℝ × ℝ) = edgePoint i u) :
    (u = 0 ∧ j = i) ∨ (u = 1 ∧ j = (i + 1) % 4) := by
  have h1 := congrArg Prod.fst h
  have h2 := congrArg Prod.snd h
  interval_cases i <;> interval_cases j <;> simp [cornerPoint, edgePoint] at h1 h2 ⊢ <;> linarith

theorem edge_one (i : Nat) (hi : i < 4) : (edgePoint i 1 : ℝ × ℝ) = cornerPoint ((i + 1) % 4) := by
  interval_cases i <;> simp [cornerPoint, edgePoint]

theorem edge_inj (i : Nat) (x y : ℝ) (h : (edgePoint i x : ℝ × ℝ) = edgePoint i y) : x = y := by
  have h1 := congrArg Prod.fst h
  have h2 := congrArg Prod.snd h
  unfold edgePoint at h1 h2
  split_ifs at h1 h2 <;> simp_all

/-- The cell along edge `i` with given position. -/
theorem edge_cell (l i k : Nat) (hi : i < 4) (hk : k < 2 ^ l) (P q : Nat) (hq : q < P) : ∃ b : Addr, b.1 = q ∧ IsNode P l b ∧ OnEdge l i b ∧
    alongEdge l i b = k := by
  have hN : 0 < 2 ^ l := by positivity
  obtain ⟨w, w1, w2, w3, w4⟩ := pos_surj l (if i = 0 then k else if i = 1 then 2 ^ l - 1 else if i = 2 then 2 ^ l - 1 - k else 0)
    (if i = 0 then 0 else if i = 1 then k else if i = 2 then 2 ^ l - 1 else 2 ^ l - 1 - k) (by split_ifs <;> omega) (by split_ifs <;> omega)
  refine ⟨(q, w), rfl, ⟨hq, w1, w2⟩, ?_, ?_⟩
  · unfold OnEdge
    simp only [w3, w4]
    interval_cases i <;> simp <;> omega
  · unfold alongEdge
    simp only [w3, w4]
    interval_cases i <;> simp <;> omega

end Smooth
open Smooth

/-- C22: on a surface that does not intersect itself the vertex numbers are the points: two corners of elements of a level have the same number
if and only if they are the same point of the surface. -/
theorem C22_numbers_are_points (near : V3 → V3 → Bool) (corner : Nat → Nat → V3) (P M : Nat) (hP : 0 < P) (hc : ConformingPatches near corner P)
    (geo : Nat → ℝ × ℝ → V3 × V3 × V3) (hw : Watertight corner P fun p s => (geo p s).1) (hemb : Embedded corner P geo)
    (t : Mesh.Tree ℝ) (ht : initElementTree near corner P M = some t) (l : Nat) (hl : l ≤ M) (a b : Addr) (ha : IsNode P l a) (hb : IsNode P l b)
    (i j : Nat) (hi : i < 4) (hj : j < 4) :
    t.vert a i = t.vert b j ↔
      (SuperSpace.map2surface t geo a (cornerPoint i) 1).f = (SuperSpace.map2surface t geo b (cornerPoint j) 1).f := by
  refine ⟨?_, ?_⟩
  · intro h
    obtain ⟨t', h1, h2⟩ := C22_same_point (K := ℝ) near corner P M hP hc (fun p s => (geo p s).1) hw
    obtain rfl : t = t' := Option.some.inj (ht.symm.trans h1)
    exact (h2 l hl a b ha hb i hi j hj).1 h
  obtain ⟨t', N, h1, h2, h3, h4, h5, h6, h7⟩ := topo_facts (K := ℝ) near corner P M hP hc
  obtain rfl : t = t' := Option.some.inj (ht.symm.trans h1)
  obtain ⟨G, I⟩ := grid_levels corner h3 h6 hc.distinct l hl
  obtain ⟨t', k1, k2, -⟩ := tree_facts (K := ℝ) near corner P M hP
  obtain rfl : t = t' := Option.some.inj (ht.symm.trans k1)
  have pt : ∀ a, IsNode P l a → ∀ y, (SuperSpace.map2surface t geo a y 1).f = (geo a.1 (cellPt (2 ^ l) (posX a.2) (posY a.2) y)).1 := by
    intro a ha y
    obtain ⟨-, v2, v3, v4⟩ := k2 l hl a (mem_leaves.2 ha)
    simp only [SuperSpace.map2surface, getH, v2, v3, v4, cellPt, ha.2.1]
    congr 3 <;> · push_cast; ring
  have hN : 0 < 2 ^ l := by positivity
  have grid : ∀ a b, IsNode P l a → IsNode P l b → a.1 = b.1 → ∀ i < 4, ∀ j < 4,
      cellPt (2 ^ l) (posX a.2) (posY a.2) (cornerPoint i) = cellPt (2 ^ l) (posX b.2) (posY b.2) (cornerPoint j) → t.vert a i = t.vert b j :=
    fun a b ha hb hab i hi j hj h => (G a b i j (mem_leaves.2 ha) (mem_leaves.2 hb) hab hi hj).2 ((cell_grid _ hN a b i j hi hj).1 h)
  have q1 := pos_lt a.2
  have q2 := pos_lt b.2
  rw [ha.2.1] at q1
  rw [hb.2.1] at q2
  have cs : ∀ j < 4, ClosedSquare (cornerPoint j) := by
    intro j hj
    interval_cases j <;> norm_num [ClosedSquare, cornerPoint, edgePoint]
  have sq : ∀ X Y : Nat, X < 2 ^ l → Y < 2 ^ l → ∀ y, ClosedSquare y → ClosedSquare (cellPt (2 ^ l) X Y y) := by
    intro X Y hX hY y hy
    obtain ⟨y0, y1, y2, y3⟩ := hy
    have p : (0 : ℝ) < (2 ^ l : Nat) := by exact_mod_cast hN
    have hX' : (X : ℝ) + 1 ≤ (2 ^ l : Nat) := by exact_mod_cast hX
    have hY' : (Y : ℝ) + 1 ≤ (2 ^ l : Nat) := by exact_mod_cast hY
    refine ⟨?_, ?_, ?_, ?_⟩ <;> simp only [cellPt]
    · positivity
    · rw [div_le_one p]; linarith
    · positivity
    · rw [div_le_one p]; linarith
  have lt : ∀ k, (k + 1) % 4 < 4 := fun k => Nat.mod_lt _ (by norm_num)
  -- a vertex at a corner of the patch
  have atcorner : ∀ a, IsNode P l a → ∀ i < 4, ∀ i0 < 4, cellPt (2 ^ l) (posX a.2) (posY a.2) (cornerPoint i) = cornerPoint i0 →
      t.vert a i = t.vert (a.1, []) i0 := by
    intro a ha i hi i0 hi0 h
    have key : ∀ l ≤ M, IsNode P l (a.1, List.replicate l i0) ∧ t.vert (a.1, List.replicate l i0) i0 = t.vert (a.1, []) i0 ∧
        cellPt (2 ^ l) (posX (List.replicate l i0)) (posY (List.replicate l i0)) (cornerPoint i0) = cornerPoint i0 := by
      intro l
      induction l with
      | zero =>
        intro _
        refine ⟨⟨ha.1, rfl, by simp⟩, rfl, ?_⟩
        simp [cellPt, posX, posY]
      | succ l ih =>
        intro hl
        obtain ⟨a1, a2, a3⟩ := ih (by omega)
        refine ⟨⟨ha.1, by simp, fun x hx => by rw [List.eq_of_mem_replicate hx]; exact hi0⟩, ?_, ?_⟩
        · rw [← a2]
          exact (h3 l (by omega)).refd.v0 (a.1, List.replicate l i0) (mem_leaves.2 a1) i0 hi0
        · refine Eq.trans ?_ a3
          simp only [List.replicate_succ, posX, posY, cellPt]
          interval_cases i0 <;> · norm_num [cornerPoint, edgePoint, pow_succ]; constructor <;> · field_simp; try ring
    obtain ⟨a1, a2, a3⟩ := key l hl
    rw [← a2]
    exact grid a _ ha a1 rfl i hi i0 hi0 (h.trans a3.symm)
  intro h
  rw [pt a ha, pt b hb] at h
  rcases hemb a.1 ha.1 b.1 hb.1 _ _ (sq _ _ q1.1 q1.2 _ (cs i hi)) (sq _ _ q2.1 q2.2 _ (cs j hj)) h with
    ⟨hp, hs⟩ | ⟨hp, i0, hi0, j0, hj0, x, x0, x1, e1, e2⟩ | ⟨i0, hi0, j0, hj0, e1, e2⟩
  · exact grid a b ha hb hp i hi j hj hs
  · obtain ⟨k, hk, u1, u2, u3, u4, u5⟩ := cell_edge' _ _ _ q1.1 q1.2 _ (cs i hi) i0 hi0 x e1.symm
    have al : alongEdge l i0 a = k := u4.symm
    have on : OnEdge l i0 a := u5
    have p : ((2 ^ l : Nat) : ℝ) ≠ 0 := by exact_mod_cast hN.ne'
    rcases e2 with ⟨m1, m2, e2⟩ | ⟨m1, m2, e2⟩
    · obtain ⟨c, c1, c2, c3, c4⟩ := edge_cell l j0 k hj0 (by omega) P b.1 hb.1
      have sd := ((I a c i0 j0 (mem_leaves.2 ha) (mem_leaves.2 c2) (by rw [c1]; exact hp) hi0 hj0).1).2 ⟨on, c3, by rw [c1]; exact m1, by rw [c1]; exact m2, by rw [al, c4]⟩
      have q3 := pos_lt c.2
      rw [c2.2.1] at q3
      have ec := cell_on_edge (2 ^ l) (posX c.2) (posY c.2) q3.1 q3.2 j0 c3
      rw [show (if j0 = 0 then posX c.2 else if j0 = 1 then posY c.2 else if j0 = 2 then 2 ^ l - 1 - posX c.2 else 2 ^ l - 1 - posY c.2) = k from c4] at ec
      rcases corner_edge i0 i hi0 hi _ u3 with ⟨z, rfl⟩ | ⟨z, rfl⟩
      · rw [sd.1]
        refine grid c b c2 hb c1 j0 hj0 j hj ?_
        rw [e2]
        refine (ec 0).trans ?_
        congr 1
        field_simp; linarith
      · rw [sd.2]
        refine grid c b c2 hb c1 _ (lt _) j hj ?_
        rw [e2, ← edge_one j0 hj0, ec 1]
        congr 1
        field_simp; linarith
    · obtain ⟨c, c1, c2, c3, c4⟩ := edge_cell l j0 (2 ^ l - 1 - k) hj0 (by omega) P b.1 hb.1
      have sd := ((I a c i0 j0 (mem_leaves.2 ha) (mem_leaves.2 c2) (by rw [c1]; exact hp) hi0 hj0).2).2 ⟨on, c3, by rw [c1]; exact m1, by rw [c1]; exact m2, by rw [al, c4]; omega⟩
      have q3 := pos_lt c.2
      rw [c2.2.1] at q3
      have ec := cell_on_edge (2 ^ l) (posX c.2) (posY c.2) q3.1 q3.2 j0 c3
      rw [show (if j0 = 0 then posX c.2 else if j0 = 1 then posY c.2 else if j0 = 2 then 2 ^ l - 1 - posX c.2 else 2 ^ l - 1 - posY c.2) = 2 ^ l - 1 - k from c4] at ec
      have kc : ((2 ^ l - 1 - k : Nat) : ℝ) = (2 ^ l : Nat) - 1 - k := by
        rw [Nat.cast_sub (by omega), Nat.cast_sub (by omega)]; simp
      rw [kc] at ec
      rcases corner_edge i0 i hi0 hi _ u3 with ⟨z, rfl⟩ | ⟨z, rfl⟩
      · rw [sd.1]
        refine grid c b c2 hb c1 _ (lt _) j hj ?_
        rw [e2, ← edge_one j0 hj0, ec 1]
        congr 1
        field_simp; linarith
      · rw [sd.2]
        refine grid c b c2 hb c1 _ hj0 j hj ?_
        rw [e2]
        refine (ec 0).trans ?_
        congr 1
        field_simp; linarith
  · rw [atcorner a ha i hi i0 hi0 e1, atcorner b hb j hj j0 hj0 e2, h6 _ _ _ _ ha.1 hb.1 hi0 hj0]
    rw [e1, e2] at h
    have := hw.corners a.1 ha.1 i0 hi0
    have := hw.corners b.1 hb.1 j0 hj0
    simp_all

namespace Smooth

/-- Where two cells of the same patch meet. -/
theorem cell_contact (N X Y X' Y' : Nat) (hN : 0 < N) (y z : ℝ × ℝ) (hy : ClosedSquare y) (hz : ClosedSquare z) (h : cellPt N X Y y = cellPt N X' Y' z) :
    (X = X' ∧ Y = Y' ∧ y = z) ∨ (∃ i < 4, ∃ j < 4, y = cornerPoint i ∧ z = cornerPoint j) ∨
    ∃ i < 4, ∃ j < 4, ∃ x : ℝ, 0 ≤ x ∧ x ≤ 1 ∧ y = edgePoint i x ∧ z = edgePoint j (1 - x) ∧
      ∀ u, cellPt N X Y (edgePoint i u) = cellPt N X' Y' (edgePoint j (1 - u)) := by
  have hN' : (0 : ℝ) < N := by exact_mod_cast hN
  have h1 := congrArg Prod.fst h
  have h2 := congrArg Prod.snd h
  simp only [cellPt] at h1 h2
  rw [div_left_inj' hN'.ne'] at h1 h2
  obtain ⟨y0, y1, y2, y3⟩ := hy
  obtain ⟨z0, z1, z2, z3⟩ := hz
  have tri : ∀ (A B : Nat) (s r : ℝ), 0 ≤ s → s ≤ 1 → 0 ≤ r → r ≤ 1 → (A : ℝ) + s = B + r →
      (A = B ∧ s = r) ∨ (B = A + 1 ∧ s = 1 ∧ r = 0) ∨ (A = B + 1 ∧ s = 0 ∧ r = 1) := by
    intro A B s r s0 s1 r0 r1 e
    rcases lt_trichotomy A B with k | k | k
    · have : (A : ℝ) + 1 ≤ B := by exact_mod_cast k
      have hB : (B : ℝ) = A + 1 := by linarith
      exact Or.inr (Or.inl ⟨by exact_mod_cast hB, by linarith, by linarith⟩)
    · subst k; exact Or.inl ⟨rfl, by linarith⟩
    · have : (B : ℝ) + 1 ≤ A := by exact_mod_cast k
      have hB : (A : ℝ) = B + 1 := by linarith
      exact Or.inr (Or.inr ⟨by exact_mod_cast hB, by linarith, by linarith⟩)
  obtain ⟨a, b⟩ := y
  obtain ⟨c, d⟩ := z
  simp only at *
  rcases tri X X' a c y0 y1 z0 z1 h1 with ⟨rfl, rfl⟩ | ⟨rfl, rfl, rfl⟩ | ⟨rfl, rfl, rfl⟩ <;>
    rcases tri Y Y' b d y2 y3 z2 z3 h2 with ⟨rfl, rfl⟩ | ⟨rfl, rfl, rfl⟩ | ⟨rfl, rfl, rfl⟩
  · exact Or.inl ⟨rfl, rfl, rfl⟩
  · refine Or.inr (Or.inr ⟨2, by norm_num, 0, by norm_num, 1 - a, by linarith, by linarith, by simp [edgePoint], by simp [edgePoint], fun u => ?_⟩)
    simp [edgePoint, cellPt]
  · refine Or.inr (Or.inr ⟨0, by norm_num, 2, by norm_num, a, by linarith, by linarith, by simp [edgePoint], by simp [edgePoint], fun u => ?_⟩)
    simp [edgePoint, cellPt]
  · refine Or.inr (Or.inr ⟨1, by norm_num, 3, by norm_num, b, by linarith, by linarith, by simp [edgePoint], by simp [edgePoint], fun u => ?_⟩)
    simp [edgePoint, cellPt]
  · exact Or.inr (Or.inl ⟨2, by norm_num, 0, by norm_num, by simp [cornerPoint, edgePoint], by simp [cornerPoint, edgePoint]⟩)
  · exact Or.inr (Or.inl ⟨1, by norm_num, 3, by norm_num, by simp [cornerPoint, edgePoint], by simp [cornerPoint, edgePoint]⟩)
  · refine Or.inr (Or.inr ⟨3, by norm_num, 1, by norm_num, 1 - b, by linarith, by linarith, by simp [edgePoint], by simp [edgePoint], fun u => ?_⟩)
    simp [edgePoint, cellPt]
  · exact Or.inr (Or.inl ⟨3, by norm_num, 1, by norm_num, by simp [cornerPoint, edgePoint], by simp [cornerPoint, edgePoint]⟩)
  · exact Or.inr (Or.inl ⟨0, by norm_num, 2, by norm_num, by simp [cornerPoint, edgePoint], by simp [cornerPoint, edgePoint]⟩)

/-- The truth tables of the relative positions. -/
theorem vertex_case {v1 v2 : Nat → Nat} {r s : Nat} (h : ShareVertex v1 v2 r s) (i j : Nat) (hi : i < 4) (hj : j < 4) (e : v1 i = v2 j) : i = r ∧ j = s :=
  (h.2.2 i hi j hj).1 e

theorem edge_case {v1 v2 : Nat → Nat} {r s : Nat} (h : ShareEdge v1 v2 r s) (i j : Nat) (hi : i < 4) (hj : j < 4) (e : v1 i = v2 j) :
    (i = r ∧ j = (s + 1) % 4) ∨ (i = (r + 1) % 4 ∧ j = s) :=
  (h.2.2 i hi j hj).1 e

end Smooth
open Smooth Duffy

set_option maxHeartbeats 1000000 in
/-- C44: on a surface that does not intersect itself the recorded relative position of two elements of the same level is the geometric one:
elements without common vertex numbers have no common point, for a common vertex it is the only common point, and for a common edge the common
points are those of the edge, traversed in opposite directions. -/
theorem C44_contact (near : V3 → V3 → Bool) (corner : Nat → Nat → V3) (P M : Nat) (hP : 0 < P) (hc : ConformingPatches near corner P)
    (geo : Nat → ℝ × ℝ → V3 × V3 × V3) (hw : Watertight corner P fun p s => (geo p s).1) (hemb : Embedded corner P geo)
    (t : Mesh.Tree ℝ) (ht : initElementTree near corner P M = some t) (l : Nat) (hl : l ≤ M) (a b : Addr) (ha : IsNode P l a) (hb : IsNode P l b)
    (y z : ℝ × ℝ) (hy : ClosedSquare y) (hz : ClosedSquare z)
    (h : (SuperSpace.map2surface t geo a y 1).f = (SuperSpace.map2surface t geo b z 1).f) :
    (a = b → y = z) ∧ (a ≠ b → ¬ShareNothing (t.vert a) (t.vert b)) ∧
    (∀ r s, a ≠ b → ShareVertex (t.vert a) (t.vert b) r s → y = tau 0 0 r ∧ z = tau 0 0 s) ∧
    (∀ r s, a ≠ b → ShareEdge (t.vert a) (t.vert b) r s → ∃ x : ℝ, 0 ≤ x ∧ x ≤ 1 ∧ y = tau x 0 r ∧ z = tau (1 - x) 0 s) := by
  obtain ⟨t', k1, k2, -⟩ := tree_facts (K := ℝ) near corner P M hP
  obtain rfl : t = t' := Option.some.inj (ht.symm.trans k1)
  have pt : ∀ a, IsNode P l a → ∀ y, (SuperSpace.map2surface t geo a y 1).f = (geo a.1 (cellPt (2 ^ l) (posX a.2) (posY a.2) y)).1 := by
    intro a ha y
    obtain ⟨-, v2, v3, v4⟩ := k2 l hl a (mem_leaves.2 ha)
    simp only [SuperSpace.map2surface, getH, v2, v3, v4, cellPt, ha.2.1]
    congr 3 <;> · push_cast; ring
  have num : ∀ i < 4, ∀ j < 4, (SuperSpace.map2surface t geo a (cornerPoint i) 1).f = (SuperSpace.map2surface t geo b (cornerPoint j) 1).f →
      t.vert a i = t.vert b j := fun i hi j hj => (C22_numbers_are_points near corner P M hP hc geo hw hemb t ht l hl a b ha hb i j hi hj).2
  have hN : 0 < 2 ^ l := by positivity
  have q1 := pos_lt a.2
  have q2 := pos_lt b.2
  rw [ha.2.1] at q1
  rw [hb.2.1] at q2
  have lt : ∀ k, (k + 1) % 4 < 4 := fun k => Nat.mod_lt _ (by norm_num)
  have sq : ∀ X Y : Nat, X < 2 ^ l → Y < 2 ^ l → ∀ y, ClosedSquare y → ClosedSquare (cellPt (2 ^ l) X Y y) := by
    intro X Y hX hY y hy
    obtain ⟨y0, y1, y2, y3⟩ := hy
    have p : (0 : ℝ) < (2 ^ l : Nat) := by exact_mod_cast hN
    have hX' : (X : ℝ) + 1 ≤ (2 ^ l : Nat) := by exact_mod_cast hX
    have hY' : (Y : ℝ) + 1 ≤ (2 ^ l : Nat) := by exact_mod_cast hY
    refine ⟨?_, ?_, ?_, ?_⟩ <;> simp only [cellPt]
    · positivity
    · rw [div_le_one p]; linarith
    · positivity
    · rw [div_le_one p]; linarith
  have p : (0 : ℝ) < (2 ^ l : Nat) := by exact_mod_cast hN
  -- the three kinds of contact
  have key : (a = b ∧ y = z) ∨ (∃ i < 4, ∃ j < 4, y = cornerPoint i ∧ z = cornerPoint j ∧ t.vert a i = t.vert b j) ∨
      ∃ i < 4, ∃ j < 4, ∃ x : ℝ, 0 ≤ x ∧ x ≤ 1 ∧ y = edgePoint i x ∧
        ((z = edgePoint j x ∧ t.vert a i = t.vert b j ∧ t.vert a ((i + 1) % 4) = t.vert b ((j + 1) % 4)) ∨
          (z = edgePoint j (1 - x) ∧ t.vert a i = t.vert b ((j + 1) % 4) ∧ t.vert a ((i + 1) % 4) = t.vert b j)) := by
    have corner_kind : ∀ i < 4, ∀ j < 4, y = cornerPoint i → z = cornerPoint j → ∃ i < 4, ∃ j < 4, y = cornerPoint i ∧ z = cornerPoint j ∧ t.vert a i = t.vert b j :=
      fun i hi j hj e1 e2 => ⟨i, hi, j, hj, e1, e2, num i hi j hj (by rw [← e1, ← e2]; exact h)⟩
    have ends : ∀ i < 4, ∀ u : ℝ, (u = 0 ∨ u = 1) → ∃ i' < 4, (edgePoint i u : ℝ × ℝ) = cornerPoint i' := by
      rintro i hi u (rfl | rfl)
      · exact ⟨i, hi, rfl⟩
      · exact ⟨_, lt i, edge_one i hi⟩
    rw [pt a ha, pt b hb] at h
    rcases hemb a.1 ha.1 b.1 hb.1 _ _ (sq _ _ q1.1 q1.2 y hy) (sq _ _ q2.1 q2.2 z hz) h with
      ⟨hp, hs⟩ | ⟨hp, i0, hi0, j0, hj0, x, x0, x1, e1, e2⟩ | ⟨i0, hi0, j0, hj0, e1, e2⟩
    · rcases cell_contact _ _ _ _ _ hN y z hy hz hs with ⟨d1, d2, d3⟩ | ⟨i, hi, j, hj, d1, d2⟩ | ⟨i, hi, j, hj, x, x0, x1, d1, d2, d3⟩
      · refine Or.inl ⟨?_, d3⟩
        have := pos_inj a.2 b.2 (by rw [ha.2.1, hb.2.1]) ha.2.2 hb.2.2 d1 d2
        exact Prod.ext hp this
      · exact Or.inr (Or.inl (corner_kind i hi j hj d1 d2))
      · refine Or.inr (Or.inr ⟨i, hi, j, hj, x, x0, x1, d1, Or.inr ⟨d2, num i hi _ (lt j) ?_, num _ (lt i) j hj ?_⟩⟩)
        · rw [pt a ha, pt b hb, ← edge_one j hj, hp]
          have := d3 0
          rw [sub_zero] at this
          exact congrArg (fun s => (geo b.1 s).1) this
        · rw [pt a ha, pt b hb, ← edge_one i hi, hp, d3 1, sub_self]
          rfl
    · obtain ⟨k, hk, u1, u2, u3, u4, u5⟩ := cell_edge' _ _ _ q1.1 q1.2 y hy i0 hi0 x e1.symm
      have ea := cell_on_edge (2 ^ l) (posX a.2) (posY a.2) q1.1 q1.2 i0 u5
      rw [← u4] at ea
      rcases e2 with ⟨m1, m2, e2⟩ | ⟨m1, m2, e2⟩
      · obtain ⟨k', hk', w1, w2, w3, w4, w5⟩ := cell_edge' _ _ _ q2.1 q2.2 z hz j0 hj0 x e2.symm
        have eb := cell_on_edge (2 ^ l) (posX b.2) (posY b.2) q2.1 q2.2 j0 w5
        rw [← w4] at eb
        by_cases hkk : k = k'
        · subst hkk
          have pts : ∀ u : ℝ, 0 ≤ u → u ≤ 1 → (SuperSpace.map2surface t geo a (edgePoint i0 u) 1).f = (SuperSpace.map2surface t geo b (edgePoint j0 u) 1).f := by
            intro u h0 h1
            rw [pt a ha, pt b hb, ea, eb]
            have hk' : (k : ℝ) + 1 ≤ (2 ^ l : Nat) := by exact_mod_cast hk
            exact hw.same a.1 ha.1 b.1 hb.1 hp i0 hi0 j0 hj0 m1 m2 _ (by positivity) (by rw [div_le_one p]; linarith)
          refine Or.inr (Or.inr ⟨i0, hi0, j0, hj0, _, by linarith, by linarith, u3, Or.inl ⟨w3, num _ hi0 _ hj0 (pts 0 le_rfl zero_le_one), num _ (lt _) _ (lt _) ?_⟩⟩)
          rw [← edge_one i0 hi0, ← edge_one j0 hj0]
          exact pts 1 zero_le_one le_rfl
        · have hd : (k + 1 = k' ∧ ((2 ^ l : Nat) : ℝ) * x - k = 1 ∧ ((2 ^ l : Nat) : ℝ) * x - k' = 0) ∨ (k' + 1 = k ∧ ((2 ^ l : Nat) : ℝ) * x - k = 0 ∧ ((2 ^ l : Nat) : ℝ) * x - k' = 1) := by
            rcases Nat.lt_or_gt_of_ne hkk with g | g
            · have g' : (k : ℝ) + 1 ≤ k' := by exact_mod_cast g
              have : (k : ℝ) + 1 = k' := by linarith
              exact Or.inl ⟨by exact_mod_cast this, by linarith, by linarith⟩
            · have g' : (k' : ℝ) + 1 ≤ k := by exact_mod_cast g
              have : (k' : ℝ) + 1 = k := by linarith
              exact Or.inr ⟨by exact_mod_cast this, by linarith, by linarith⟩
          obtain ⟨i', hi', c1⟩ := ends i0 hi0 (((2 ^ l : Nat) : ℝ) * x - k) (by tauto)
          obtain ⟨j', hj', c2⟩ := ends j0 hj0 (((2 ^ l : Nat) : ℝ) * x - k') (by tauto)
          exact Or.inr (Or.inl (corner_kind i' hi' j' hj' (u3.trans c1) (w3.trans c2)))
      · obtain ⟨k', hk', w1, w2, w3, w4, w5⟩ := cell_edge' _ _ _ q2.1 q2.2 z hz j0 hj0 (1 - x) e2.symm
        have eb := cell_on_edge (2 ^ l) (posX b.2) (posY b.2) q2.1 q2.2 j0 w5
        rw [← w4] at eb
        by_cases hkk : k + k' + 1 = 2 ^ l
        · have hkr : (k : ℝ) + k' + 1 = (2 ^ l : Nat) := by exact_mod_cast hkk
          have pts : ∀ u : ℝ, 0 ≤ u → u ≤ 1 → (SuperSpace.map2surface t geo a (edgePoint i0 u) 1).f =
              (SuperSpace.map2surface t geo b (edgePoint j0 (1 - u)) 1).f := by
            intro u h0 h1
            rw [pt a ha, pt b hb, ea, eb]
            have hk' : (k : ℝ) + 1 ≤ (2 ^ l : Nat) := by exact_mod_cast hk
            have := hw.opposite a.1 ha.1 b.1 hb.1 hp i0 hi0 j0 hj0 m1 m2 ((k + u) / (2 ^ l : Nat)) (by positivity) (by rw [div_le_one p]; linarith)
            refine this.trans ?_
            congr 3
            field_simp
            linarith
          refine Or.inr (Or.inr ⟨i0, hi0, j0, hj0, _, by linarith, by linarith, u3, Or.inr ⟨w3.trans ?_, num _ hi0 _ (lt _) ?_, num _ (lt _) _ hj0 ?_⟩⟩)
          · congr 1
            linarith
          · have := pts 0 le_rfl zero_le_one
            rw [sub_zero, edge_one j0 hj0] at this
            exact this
          · have := pts 1 zero_le_one le_rfl
            rw [sub_self, edge_one i0 hi0] at this
            exact this
        · have hd : (((2 ^ l : Nat) : ℝ) * x - k = 0 ∨ ((2 ^ l : Nat) : ℝ) * x - k = 1) ∧ (((2 ^ l : Nat) : ℝ) * (1 - x) - k' = 0 ∨ ((2 ^ l : Nat) : ℝ) * (1 - x) - k' = 1) := by
            rcases Nat.lt_or_gt_of_ne hkk with g | g
            · have g' : (k : ℝ) + k' + 1 + 1 ≤ (2 ^ l : Nat) := by exact_mod_cast g
              exact ⟨Or.inr (by linarith), Or.inr (by linarith)⟩
            · have g' : ((2 ^ l : Nat) : ℝ) ≤ k + k' := by exact_mod_cast (by omega : 2 ^ l ≤ k + k')
              exact ⟨Or.inl (by linarith), Or.inl (by linarith)⟩
          obtain ⟨i', hi', c1⟩ := ends i0 hi0 _ hd.1
          obtain ⟨j', hj', c2⟩ := ends j0 hj0 _ hd.2
          exact Or.inr (Or.inl (corner_kind i' hi' j' hj' (u3.trans c1) (w3.trans c2)))
    · obtain ⟨k, -, u1, u2, u3, -⟩ := cell_edge' _ _ _ q1.1 q1.2 y hy i0 hi0 0 e1.symm
      obtain ⟨k', -, w1, w2, w3, -⟩ := cell_edge' _ _ _ q2.1 q2.2 z hz j0 hj0 0 e2.symm
      have n0 : (0 : ℝ) ≤ k := Nat.cast_nonneg _
      have n1 : (0 : ℝ) ≤ k' := Nat.cast_nonneg _
      have k0 : ((2 ^ l : Nat) : ℝ) * 0 - k = 0 := by linarith
      have k0' : ((2 ^ l : Nat) : ℝ) * 0 - k' = 0 := by linarith
      rw [k0] at u3
      rw [k0'] at w3
      exact Or.inr (Or.inl (corner_kind i0 hi0 j0 hj0 u3 w3))
  refine ⟨?_, ?_, ?_, ?_⟩
  · rintro rfl
    obtain ⟨t', h1, h2⟩ := C22_grid (K := ℝ) near corner P M hP hc
    obtain rfl : t = t' := Option.some.inj (ht.symm.trans h1)
    have inj : ∀ i < 4, ∀ j < 4, t.vert a i = t.vert a j → i = j := by
      intro i hi j hj e
      have := (h2 l hl a a ha ha rfl i hi j hj).1 e
      unfold gridPt cornerX cornerY at this
      interval_cases i <;> interval_cases j <;> simp at this ⊢
    rcases key with ⟨-, e⟩ | ⟨i, hi, j, hj, e1, e2, e3⟩ | ⟨i, hi, j, hj, x, x0, x1, e1, ⟨e2, e3, e4⟩ | ⟨e2, e3, e4⟩⟩
    · exact e
    · rw [e1, e2, inj i hi j hj e3]
    · rw [e1, e2, inj i hi j hj e3]
    · have a1 := inj i hi _ (lt j) e3
      have a2 := inj _ (lt i) j hj e4
      omega
  · intro hab hn
    rcases key with ⟨e, -⟩ | ⟨i, hi, j, hj, e1, e2, e3⟩ | ⟨i, hi, j, hj, x, x0, x1, e1, ⟨e2, e3, e4⟩ | ⟨e2, e3, e4⟩⟩
    · exact hab e
    · exact hn i hi j hj e3
    · exact hn i hi j hj e3
    · exact hn _ hi _ (lt _) e3
  · intro r s hab hv
    have hr := hv.1
    have hs := hv.2.1
    rw [(C43_edge r hr).2.1, (C43_edge s hs).2.1]
    rcases key with ⟨e, -⟩ | ⟨i, hi, j, hj, e1, e2, e3⟩ | ⟨i, hi, j, hj, x, x0, x1, e1, ⟨e2, e3, e4⟩ | ⟨e2, e3, e4⟩⟩
    · exact absurd e hab
    · obtain ⟨rfl, rfl⟩ := vertex_case hv i j hi hj e3
      exact ⟨e1, e2⟩
    · have a1 := vertex_case hv i j hi hj e3
      have a2 := vertex_case hv _ _ (lt i) (lt j) e4
      omega
    · have a1 := vertex_case hv i _ hi (lt j) e3
      have a2 := vertex_case hv _ j (lt i) hj e4
      omega
  · intro r s hab hv
    have hr := hv.1
    have hs := hv.2.1
    simp only [(C43_edge r hr).1, (C43_edge s hs).1]
    rcases key with ⟨e, -⟩ | ⟨i, hi, j, hj, e1, e2, e3⟩ | ⟨i, hi, j, hj, x, x0, x1, e1, ⟨e2, e3, e4⟩ | ⟨e2, e3, e4⟩⟩
    · exact absurd e hab
    · rcases edge_case hv i j hi hj e3 with ⟨rfl, rfl⟩ | ⟨rfl, rfl⟩
      · exact ⟨0, le_rfl, zero_le_one, e1, by rw [e2, sub_zero, edge_one s hs]⟩
      · exact ⟨1, zero_le_one, le_rfl, by rw [e1, edge_one r hr], by rw [e2, sub_self]; rfl⟩
    · have a1 := edge_case hv i j hi hj e3
      have a2 := edge_case hv _ _ (lt i) (lt j) e4
      omega
    · have a1 := edge_case hv i _ hi (lt j) e3
      have a2 := edge_case hv _ j (lt i) hj e4
      have b1 : i = r := by omega
      have b2 : j = s := by omega
      subst b1 b2
      exact ⟨x, x0, x1, e1, e2⟩

end Bembel.Props
