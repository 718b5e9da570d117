import Verif.Props.SmoothSurface
/-!
# C88: admissible clusters have no common points
-/

namespace Bembel.Props
open Finset Mesh H2 Spec Util

namespace Smooth

/-- A natural number and its successor. -/
theorem cell_meet (k k' : Nat) (x : ℝ) (h1 : (k : ℝ) ≤ x) (h2 : x ≤ k + 1) (h3 : (k' : ℝ) ≤ x) (h4 : x ≤ k' + 1) :
    ∃ e < 2, ∃ e' < 2, k + e = k' + e' := by
  have a : k ≤ k' + 1 := by
    have : (k : ℝ) ≤ k' + 1 := by linarith
    exact_mod_cast this
  have b : k' ≤ k + 1 := by
    have : (k' : ℝ) ≤ k + 1 := by linarith
    exact_mod_cast this
  rcases lt_trichotomy k k' with h | h | h
  · exact ⟨1, by norm_num, 0, by norm_num, by omega⟩
  · exact ⟨0, by norm_num, 0, by norm_num, by omega⟩
  · exact ⟨0, by norm_num, 1, by norm_num, by omega⟩

theorem corner_of (e f : Nat) (he : e < 2) (hf : f < 2) : ∃ j < 4, (cornerPoint j : ℝ × ℝ) = ((e : ℝ), (f : ℝ)) := by
  interval_cases e <;> interval_cases f
  · exact ⟨0, by norm_num, by norm_num [cornerPoint, edgePoint]⟩
  · exact ⟨3, by norm_num, by norm_num [cornerPoint, edgePoint]⟩
  · exact ⟨1, by norm_num, by norm_num [cornerPoint, edgePoint]⟩
  · exact ⟨2, by norm_num, by norm_num [cornerPoint, edgePoint]⟩

/-- The point of the cell with local coordinates `y`. -/
noncomputable def cellPt (N X Y : Nat) (y : ℝ × ℝ) : ℝ × ℝ := ((X + y.1) / N, (Y + y.2) / N)

theorem cell_same (N X Y X' Y' : Nat) (hN : 0 < N) (y z : ℝ × ℝ) (hy : ClosedSquare y) (hz : ClosedSquare z) (h : cellPt N X Y y = cellPt N X' Y' z) :
    ∃ i < 4, ∃ j < 4, cellPt N X Y (cornerPoint i) = cellPt N X' Y' (cornerPoint j) := by
  have hN' : (0 : ℝ) < N := by exact_mod_cast hN
  have h1 := congrArg Prod.fst h
  have h2 := congrArg Prod.snd h
  simp only [cellPt] at h1 h2
  rw [div_left_inj' hN'.ne'] at h1 h2
  obtain ⟨y0, y1, y2, y3⟩ := hy
  obtain ⟨z0, z1, z2, z3⟩ := hz
  obtain ⟨e, he, e', he', k1⟩ := cell_meet X X' (X + y.1) (by linarith) (by linarith) (by linarith) (by linarith)
  obtain ⟨f, hf, f', hf', k2⟩ := cell_meet Y Y' (Y + y.2) (by linarith) (by linarith) (by linarith) (by linarith)
  obtain ⟨i, hi, ci⟩ := corner_of e f he hf
  obtain ⟨j, hj, cj⟩ := corner_of e' f' he' hf'
  refine ⟨i, hi, j, hj, ?_⟩
  unfold cellPt
  rw [ci, cj]
  have k1' : (X : ℝ) + e = X' + e' := by exact_mod_cast k1
  have k2' : (Y : ℝ) + f = Y' + f' := by exact_mod_cast k2
  simp only [k1', k2']

/-- A cell that contains a point of edge `i` contains an interval of the edge that ends in corners of the cell. -/
theorem cell_edge (N X Y : Nat) (hX : X < N) (hY : Y < N) (y : ℝ × ℝ) (hy : ClosedSquare y) (i : Nat) (hi : i < 4) (x : ℝ)
    (h : edgePoint i x = cellPt N X Y y) : ∃ k : Nat, k + 1 ≤ N ∧ (k : ℝ) ≤ N * x ∧ N * x ≤ k + 1 ∧
      ∀ e < 2, ∃ j < 4, cellPt N X Y (cornerPoint j) = edgePoint i (((k + e : Nat) : ℝ) / N) := by
  have hN' : (0 : ℝ) < N := by exact_mod_cast (by omega : 0 < N)
  have h1 := congrArg Prod.fst h
  have h2 := congrArg Prod.snd h
  obtain ⟨y0, y1, y2, y3⟩ := hy
  have hX0 : (0 : ℝ) ≤ X := Nat.cast_nonneg _
  have hY0 : (0 : ℝ) ≤ Y := Nat.cast_nonneg _
  interval_cases i
  · simp only [cellPt, edgePoint, if_true] at h1 h2
    rw [eq_comm, div_eq_zero_iff] at h2
    have hy0 : (Y : ℝ) = 0 := by rcases h2 with h2 | h2 <;> linarith
    rw [eq_div_iff hN'.ne'] at h1
    refine ⟨X, hX, by linarith, by linarith, fun e he => ?_⟩
    obtain ⟨j, hj, cj⟩ := corner_of e 0 he (by norm_num)
    refine ⟨j, hj, ?_⟩
    unfold cellPt edgePoint
    rw [cj]
    simp [hy0]
  · simp only [cellPt, edgePoint, if_true, one_ne_zero, if_false] at h1 h2
    rw [eq_div_iff hN'.ne'] at h1 h2
    have hx1 : (X : ℝ) + 1 = N := by
      have : X + 1 ≤ N := hX
      have : (X : ℝ) + 1 ≤ N := by exact_mod_cast this
      linarith
    refine ⟨Y, hY, by linarith, by linarith, fun e he => ?_⟩
    obtain ⟨j, hj, cj⟩ := corner_of 1 e (by norm_num) he
    refine ⟨j, hj, ?_⟩
    unfold cellPt edgePoint
    rw [cj]
    simp only [Nat.cast_one, hx1, div_self hN'.ne', Nat.cast_add]
    simp
  · simp only [cellPt, edgePoint, if_true, if_false, OfNat.ofNat_ne_zero, OfNat.ofNat_ne_one] at h1 h2
    rw [eq_div_iff hN'.ne'] at h1 h2
    have hy1 : (Y : ℝ) + 1 = N := by
      have : Y + 1 ≤ N := hY
      have : (Y : ℝ) + 1 ≤ N := by exact_mod_cast this
      linarith
    have hk : ((N - 1 - X : Nat) : ℝ) = N - 1 - X := by
      rw [Nat.cast_sub (by omega), Nat.cast_sub (by omega)]; simp
    refine ⟨N - 1 - X, by omega, by rw [hk]; linarith, by rw [hk]; linarith, fun e he => ?_⟩
    obtain ⟨j, hj, cj⟩ := corner_of (1 - e) 1 (by omega) (by norm_num)
    refine ⟨j, hj, ?_⟩
    unfold cellPt edgePoint
    have he' : ((1 - e : Nat) : ℝ) = 1 - e := by rw [Nat.cast_sub (by omega)]; simp
    rw [cj, he']
    simp only [Nat.cast_one, hy1, div_self hN'.ne', Nat.cast_add, hk, OfNat.ofNat_ne_zero, OfNat.ofNat_ne_one, if_false, if_true]
    refine Prod.ext ?_ rfl
    simp only; field_simp; ring
  · simp only [cellPt, edgePoint, if_false, OfNat.ofNat_ne_zero, OfNat.ofNat_ne_one, show (3 : Nat) ≠ 2 by norm_num] at h1 h2
    rw [eq_div_iff hN'.ne'] at h2
    rw [eq_comm, div_eq_zero_iff] at h1
    have hx0 : (X : ℝ) = 0 := by rcases h1 with h1 | h1 <;> linarith
    have hk : ((N - 1 - Y : Nat) : ℝ) = N - 1 - Y := by
      rw [Nat.cast_sub (by omega), Nat.cast_sub (by omega)]; simp
    refine ⟨N - 1 - Y, by omega, by rw [hk]; linarith, by rw [hk]; linarith, fun e he => ?_⟩
    obtain ⟨j, hj, cj⟩ := corner_of 0 (1 - e) (by norm_num) (by omega)
    refine ⟨j, hj, ?_⟩
    unfold cellPt edgePoint
    have he' : ((1 - e : Nat) : ℝ) = 1 - e := by rw [Nat.cast_sub (by omega)]; simp
    rw [cj, he']
    simp only [Nat.cast_zero, hx0, Nat.cast_add, hk, OfNat.ofNat_ne_zero, OfNat.ofNat_ne_one, if_false, show (3 : Nat) ≠ 2 by norm_num, add_zero, zero_div]
    refine Prod.ext rfl ?_
    simp only; field_simp; ring

theorem cell_corner (N X Y : Nat) (hX : X < N) (hY : Y < N) (y : ℝ × ℝ) (hy : ClosedSquare y) (i : Nat) (hi : i < 4)
    (h : cornerPoint i = cellPt N X Y y) : ∃ j < 4, cellPt N X Y (cornerPoint j) = cornerPoint i := by
  obtain ⟨k, -, h2, -, h3⟩ := cell_edge N X Y hX hY y hy i hi 0 h
  rw [mul_zero] at h2
  have : k = 0 := by
    have : k ≤ 0 := by exact_mod_cast h2
    omega
  obtain ⟨j, hj, e⟩ := h3 0 (by norm_num)
  subst this
  exact ⟨j, hj, by rw [e]; simp [cornerPoint]⟩

end Smooth
open Smooth

/-- C88: on a surface that does not intersect itself clusters of the same level that satisfy the admissibility condition have no common points,
although the bounding balls of curved clusters need not contain them. -/
theorem C88_separated (near : V3 → V3 → Bool) (corner : Nat → Nat → V3) (P M : Nat) (hP : 0 < P) (hc : ConformingPatches near corner P)
    (geo : Nat → ℝ × ℝ → V3 × V3 × V3) (hw : Watertight corner P fun p s => (geo p s).1) (hemb : Embedded corner P geo)
    (t : Mesh.Tree ℝ) (ht : initElementTree near corner P M = some t) (junk : Nat → V3) (B0 B : Addr → Ball V3)
    (hB : computeElementEnclosings t (fun p s => (geo p s).1) junk B0 = some B) (eta : ℝ) (he : 0 ≤ eta) (l : Nat) (hl : l ≤ M) (c1 c2 : Addr)
    (i1 : IsNode P l c1) (i2 : IsNode P l c2)
    (hadm : max (B c1).rad (B c2).rad < eta * (‖(B c1).mid - (B c2).mid‖ - (B c1).rad - (B c2).rad)) : Separated t geo c1 c2 := by
  obtain ⟨t', h1, B', h2, h3⟩ := C24_balls near corner P M hP hc (fun p s => (geo p s).1) hw junk B0
  obtain rfl : t = t' := Option.some.inj (ht.symm.trans h1)
  obtain rfl : B = B' := Option.some.inj (hB.symm.trans h2)
  obtain ⟨t', k1, k2, -⟩ := tree_facts (K := ℝ) near corner P M hP
  obtain rfl : t = t' := Option.some.inj (ht.symm.trans k1)
  -- points of clusters
  have pt : ∀ l ≤ M, ∀ a, IsNode P l a → ∀ y, (SuperSpace.map2surface t geo a y 1).f = (geo a.1 (cellPt (2 ^ l) (posX a.2) (posY a.2) y)).1 := by
    intro l hl a ha y
    obtain ⟨-, v2, v3, v4⟩ := k2 l hl a (mem_leaves.2 ha)
    simp only [SuperSpace.map2surface, getH, v2, v3, v4, cellPt, ha.2.1]
    congr 3 <;> · push_cast; ring
  -- corners are in the balls
  have cor : ∀ k l, l + k = M → ∀ a, IsNode P l a → ∀ j < 4, ‖(geo a.1 (cellPt (2 ^ l) (posX a.2) (posY a.2) (cornerPoint j))).1 - (B a).mid‖ ≤ (B a).rad := by
    intro k
    induction k with
    | zero =>
      intro l hl a ha j hj
      obtain rfl : l = M := by omega
      have := (h3 l le_rfl a ha).2.1 a ha rfl ⟨[], rfl⟩ j hj
      rw [← pt l le_rfl a ha]
      exact this
    | succ k ih =>
      intro l hl a ha j hj
      have ha' : IsNode P (l + 1) (son a j) := ⟨ha.1, by simp [son, ha.2.1], fun x hx => by
        rcases List.mem_cons.1 hx with rfl | hx
        · exact hj
        · exact ha.2.2 x hx⟩
      have := ih (l + 1) (by omega) (son a j) ha' j hj
      have e : cellPt (2 ^ (l + 1)) (posX (son a j).2) (posY (son a j).2) (cornerPoint j) = cellPt (2 ^ l) (posX a.2) (posY a.2) (cornerPoint j) := by
        simp only [son, posX, posY, cellPt]
        interval_cases j <;> · norm_num [cornerPoint, edgePoint, pow_succ]; constructor <;> · field_simp; try ring
      rw [e] at this
      exact (h3 l (by omega) a ha).2.2 (by omega) j hj _ this
  -- common corners exclude admissibility
  have key : ¬∃ j1 < 4, ∃ j2 < 4, (geo c1.1 (cellPt (2 ^ l) (posX c1.2) (posY c1.2) (cornerPoint j1))).1 =
      (geo c2.1 (cellPt (2 ^ l) (posX c2.2) (posY c2.2) (cornerPoint j2))).1 := by
    rintro ⟨j1, hj1, j2, hj2, e⟩
    have a1 := cor (M - l) l (by omega) c1 i1 j1 hj1
    have a2 := cor (M - l) l (by omega) c2 i2 j2 hj2
    rw [← e] at a2
    set z := (geo c1.1 (cellPt (2 ^ l) (posX c1.2) (posY c1.2) (cornerPoint j1))).1
    have : ‖(B c1).mid - (B c2).mid‖ ≤ (B c1).rad + (B c2).rad := by
      calc ‖(B c1).mid - (B c2).mid‖ = ‖((B c1).mid - z) + (z - (B c2).mid)‖ := by congr 1; abel
        _ ≤ _ := (norm_add_le _ _).trans (add_le_add (by rw [norm_sub_rev]; exact a1) a2)
    have r1 := (h3 l hl c1 i1).1
    have h0 : 0 ≤ max (B c1).rad (B c2).rad := r1.trans (le_max_left _ _)
    have : eta * (‖(B c1).mid - (B c2).mid‖ - (B c1).rad - (B c2).rad) ≤ 0 := mul_nonpos_of_nonneg_of_nonpos he (by linarith)
    linarith
  intro y z hy hz h
  apply key
  rw [pt l hl c1 i1, pt l hl c2 i2] at h
  have hN : 0 < 2 ^ l := by positivity
  have q1 := pos_lt c1.2
  have q2 := pos_lt c2.2
  rw [i1.2.1] at q1
  rw [i2.2.1] at q2
  have sq : ∀ X Y : Nat, X < 2 ^ l → Y < 2 ^ l → ∀ y, ClosedSquare y → ClosedSquare (cellPt (2 ^ l) X Y y) := by
    intro X Y hX hY y hy
    obtain ⟨y0, y1, y2, y3⟩ := hy
    have p : (0 : ℝ) < (2 ^ l : Nat) := by exact_mod_cast hN
    have hX' : (X : ℝ) + 1 ≤ (2 ^ l : Nat) := by exact_mod_cast hX
    have hY' : (Y : ℝ) + 1 ≤ (2 ^ l : Nat) := by exact_mod_cast hY
    refine ⟨?_, ?_, ?_, ?_⟩ <;> simp only [cellPt]
    · positivity
    · rw [div_le_one p]; linarith
    · positivity
    · rw [div_le_one p]; linarith
  rcases hemb c1.1 i1.1 c2.1 i2.1 _ _ (sq _ _ q1.1 q1.2 y hy) (sq _ _ q2.1 q2.2 z hz) h with ⟨hp, hs⟩ | ⟨hp, i, hi, j, hj, x, x0, x1, e1, e2⟩ | ⟨i, hi, j, hj, e1, e2⟩
  · obtain ⟨j1, hj1, j2, hj2, e⟩ := cell_same _ _ _ _ _ hN y z hy hz hs
    exact ⟨j1, hj1, j2, hj2, by rw [e, hp]⟩
  · obtain ⟨k, hk, u1, u2, u3⟩ := cell_edge _ _ _ q1.1 q1.2 y hy i hi x e1.symm
    rcases e2 with ⟨m1, m2, e2⟩ | ⟨m1, m2, e2⟩
    · obtain ⟨k', hk', w1, w2, w3⟩ := cell_edge _ _ _ q2.1 q2.2 z hz j hj x e2.symm
      obtain ⟨e, he, e', he', ke⟩ := cell_meet k k' _ u1 u2 w1 w2
      obtain ⟨j1, hj1, v1⟩ := u3 e he
      obtain ⟨j2, hj2, v2⟩ := w3 e' he'
      refine ⟨j1, hj1, j2, hj2, ?_⟩
      rw [v1, v2, ke]
      have p : (0 : ℝ) < (2 ^ l : Nat) := by exact_mod_cast hN
      exact hw.same c1.1 i1.1 c2.1 i2.1 hp i hi j hj m1 m2 _ (by positivity) (by rw [div_le_one p]; exact_mod_cast (by omega : k' + e' ≤ 2 ^ l))
    · obtain ⟨k', hk', w1, w2, w3⟩ := cell_edge _ _ _ q2.1 q2.2 z hz j hj (1 - x) e2.symm
      have p : (0 : ℝ) < (2 ^ l : Nat) := by exact_mod_cast hN
      have c : ((2 ^ l - 1 - k' : Nat) : ℝ) = (2 ^ l : Nat) - 1 - k' := by
        rw [Nat.cast_sub (by omega), Nat.cast_sub (by omega)]; simp
      obtain ⟨e, he, e', he', ke⟩ := cell_meet k (2 ^ l - 1 - k') _ u1 u2 (by rw [c]; linarith) (by rw [c]; linarith)
      obtain ⟨j1, hj1, v1⟩ := u3 e he
      obtain ⟨j2, hj2, v2⟩ := w3 (1 - e') (by omega)
      refine ⟨j1, hj1, j2, hj2, ?_⟩
      rw [v1, v2]
      have := hw.opposite c1.1 i1.1 c2.1 i2.1 hp i hi j hj m1 m2 (((k + e : Nat) : ℝ) / (2 ^ l : Nat)) (by positivity)
        (by rw [div_le_one p]; exact_mod_cast (by omega : k + e ≤ 2 ^ l))
      rw [this]
      congr 3
      have : k + e + (k' + (1 - e')) = 2 ^ l := by omega
      have : ((k + e : Nat) : ℝ) + ((k' + (1 - e') : Nat) : ℝ) = ((2 ^ l : Nat) : ℝ) := by exact_mod_cast this
      field_simp
      linarith
  · obtain ⟨j1, hj1, v1⟩ := cell_corner _ _ _ q1.1 q1.2 y hy i hi e1.symm
    obtain ⟨j2, hj2, v2⟩ := cell_corner _ _ _ q2.1 q2.2 z hz j hj e2.symm
    exact ⟨j1, hj1, j2, hj2, by rw [v1, v2, ← e1, ← e2]; exact h⟩

/-- C88: the compressed matrix on a smooth surface that does not intersect itself, with the computed bounding balls: every entry is the entry of
the dense assembly or differs from the exact integral by at most `C / n ^ κ`. -/
theorem C88_surface {R : Type} [RCLike R] (es : EigenSolver) (op : Operator R) (hvd : 0 < op.vd) (hnc : 0 < op.nc) (T : (P M d a i : Nat) → ℝ × ℝ → ℝ)
    (mom : MomentEnv → (p cl r np : Nat) → List (EMat ℝ)) (hmom : MomentsFor op.vd op.nc T mom) (hrap : RapidlyAccurate es op T)
    (near : V3 → V3 → Bool) (corner : Nat → Nat → V3) (P M : Nat) (hP : 0 < P) (hc : ConformingPatches near corner P)
    (geo : Nat → ℝ × ℝ → V3 × V3 × V3) (hgeo : RegularPatches P geo) (hsm : SmoothPatches P geo)
    (hw : Watertight corner P fun p s => (geo p s).1) (hemb : Embedded corner P geo)
    (t : Mesh.Tree ℝ) (ht : initElementTree near corner P M = some t) (junkB : Nat → V3) (B0 B : Addr → Ball V3)
    (hB : computeElementEnclosings t (fun p s => (geo p s).1) junkB B0 = some B) (eta : ℝ) (heta : 0 ≤ eta)
    (minLevel : Int) (hm : 0 ≤ minLevel) (p : Nat) (trans : EMat R) (htr : trans.rows = op.vd * ((p + 1) * (p + 1) * t.nElements)) (jr : Nat → ℝ)
    (jk : Nat → R) :
    ∃ C : Nat → ℝ, ∀ (pair : Addr → Addr → Option (Nat → Nat → R)) (v : Addr → Addr → Nat → Nat → R),
      (∀ a b, IsNode P M a → IsNode P M b → pair a b = some (v a b)) → ∀ (E : MomentEnv) (n : Nat), 0 < n → E.pts n = chebychevRoots n →
      ∀ order, gaussIndex n p ≤ order → E.GL (gaussIndex n p) = gaussLegendre es order (gaussIndex n p) →
      ∃ A : Nat → Nat → R,
      (∀ a b, IsNode P M a → IsNode P M b → ∀ i < op.vd, ∀ j < op.vd, ∀ r < (p + 1) * (p + 1), ∀ c < (p + 1) * (p + 1),
        let entry := A (i * ((p + 1) * (p + 1) * t.nElements) + ((p + 1) * (p + 1) * t.id a + r))
          (j * ((p + 1) * (p + 1) * t.nElements) + ((p + 1) * (p + 1) * t.id b + c))
        entry = v a b (i * ((p + 1) * (p + 1)) + r) (j * ((p + 1) * (p + 1)) + c) ∨
        ∀ κ : Nat, ‖entry - exactEntry t op (SuperSpace.map2surface t geo) p M jr jk a b (i * ((p + 1) * (p + 1)) + r)
          (j * ((p + 1) * (p + 1)) + c)‖ ≤ C κ / (n : ℝ) ^ κ) ∧
      ∀ (junk : Nat → Nat → R) (junkE junkT : Nat → Nat → ℝ) (M0 : LeafMem R) (order : List Nat),
        order.Perm (List.range (BlockCluster.leafPointers (BlockCluster.initBlockClusterTree t B eta minLevel)).length) →
        ∃ H, initH2Matrix junk junkE junkT M0 op t B eta minLevel p trans (SuperSpace.map2surface t geo) pair E mom n order = some H ∧
        ∀ (junk : Nat → Nat → R) (S : Schedules H) (rhs res : EMat R) (alpha : R),
          rhs.rows = trans.cols → res.rows = trans.cols → res.cols = rhs.cols →
          ∃ res', run junk H S rhs res alpha = some res' ∧ res'.rows = res.rows ∧ res'.cols = res.cols ∧
          ∀ i < res.rows, ∀ c < res.cols, res'.at' i c = res.at' i c + alpha * ∑ r ∈ range trans.rows,
            ∑ k ∈ range trans.rows, ∑ d ∈ range trans.cols, trans.at' r i * A r k * trans.at' k d * rhs.at' d c := by
  obtain ⟨t', h1, B', h2, h3⟩ := C24_balls near corner P M hP hc (fun p s => (geo p s).1) hw junkB B0
  obtain rfl : t = t' := Option.some.inj (ht.symm.trans h1)
  obtain rfl : B = B' := Option.some.inj (hB.symm.trans h2)
  exact C88_product es op hvd hnc T mom hmom hrap near corner P M hP geo hgeo hsm t ht B (fun l hl a ha => (h3 l hl a ha).1) eta
    (fun l hl c1 c2 i1 i2 hadm => C88_separated near corner P M hP hc geo hw hemb t ht junkB B0 B hB eta heta l hl c1 c2 i1 i2 hadm)
    minLevel hm p trans htr jr jk

/-- The hypotheses of `C88_separated` are met: the flat unit square has admissible clusters. -/
example : Embedded (fun q j => (flatSquare q (cornerPoint j)).1) 1 flatSquare ∧ ∃ (t : Mesh.Tree ℝ),
    initElementTree (nearBy (1 / 1000)) (fun q j => (flatSquare q (cornerPoint j)).1) 1 2 = some t ∧ Separated t flatSquare (0, [0, 0]) (0, [2, 2]) := by
  have emb : Embedded (fun q j => (flatSquare q (cornerPoint j)).1) 1 flatSquare := by
    intro p hp q hq s r _ _ h
    left
    have e0 := congrFun (congrArg WithLp.ofLp h) 0
    have e1 := congrFun (congrArg WithLp.ofLp h) 1
    simp [flatSquare] at e0 e1
    exact ⟨by omega, Prod.ext e0 e1⟩
  obtain ⟨t, B, h1, hB, i1, i2, hadm⟩ := Compress.example_admissible
  exact ⟨emb, t, h1, C88_separated _ _ 1 2 (by norm_num) flatSquare_conforming flatSquare Compress.flatSquare_water emb t h1 _ _ B hB 1.6 (by norm_num) 2 le_rfl
    _ _ i1 i2 hadm⟩

namespace Smooth

/-- Two patches with a common edge, the second one curved. -/
noncomputable def sheet : Nat → ℝ × ℝ → V3 × V3 × V3 := fun p x =>
  if p = 0 then (WithLp.toLp 2 ![x.1, x.2, 0], WithLp.toLp 2 ![1, 0, 0], WithLp.toLp 2 ![0, 1, 0])
  else (WithLp.toLp 2 ![1 + x.1 ^ 2, x.2, x.1], WithLp.toLp 2 ![2 * x.1, 0, 1], WithLp.toLp 2 ![0, 1, 0])

/-- Its vertices. -/
noncomputable def sheetVertex (k : Nat) : V3 :=
  if k = 0 then WithLp.toLp 2 ![0, 0, 0] else if k = 1 then WithLp.toLp 2 ![1, 0, 0] else if k = 2 then WithLp.toLp 2 ![1, 1, 0]
  else if k = 3 then WithLp.toLp 2 ![0, 1, 0] else if k = 4 then WithLp.toLp 2 ![2, 0, 1] else WithLp.toLp 2 ![2, 1, 1]

def sheetIndex (p j : Nat) : Nat := if p = 0 then j else if j = 0 then 1 else if j = 1 then 4 else if j = 2 then 5 else 2

theorem sheetIndex_lt (p j : Nat) (hj : j < 4) : sheetIndex p j < 6 := by unfold sheetIndex; split_ifs <;> omega

theorem vertex_inj (a b : Nat) (ha : a < 6) (hb : b < 6) (h : sheetVertex a = sheetVertex b) : a = b := by
  have h2 : ∀ a b c : ℝ, (![a, b, c] : Fin 3 → ℝ) 2 = c := fun _ _ _ => rfl
  have e0 := congrFun (congrArg WithLp.ofLp h) 0
  have e1 := congrFun (congrArg WithLp.ofLp h) 1
  have e2 := congrFun (congrArg WithLp.ofLp h) 2
  clear h
  interval_cases a <;> interval_cases b <;> first
    | rfl
    | (exfalso; norm_num [sheetVertex] at e0; done)
    | (exfalso; norm_num [sheetVertex] at e1; done)
    | (exfalso; norm_num [sheetVertex, h2] at e2; done)

theorem sheet_d : ∀ p < 2, ∀ i < 4, ∀ j < 4, sheetIndex p i = sheetIndex p j → i = j := by
  decide +kernel

theorem sheet_tw : ∀ p < 2, ∀ q < 2, ∀ i < 4, ∀ j < 4,
      ((sheetIndex p i = sheetIndex q j ∧ sheetIndex p ((i + 1) % 4) = sheetIndex q ((j + 1) % 4)) ∨
      (sheetIndex p i = sheetIndex q ((j + 1) % 4) ∧ sheetIndex p ((i + 1) % 4) = sheetIndex q j)) →
      (p = q ∧ i = j) ∨ (p = 0 ∧ q = 1 ∧ i = 1 ∧ j = 3) ∨ (p = 1 ∧ q = 0 ∧ i = 3 ∧ j = 1) := by
    intro p hp q hq i hi j hj
    interval_cases p <;> interval_cases q <;> interval_cases i <;> interval_cases j <;> simp [sheetIndex]

open scoped Classical in
theorem sheet_conforming : ConformingPatches (fun u v : V3 => decide (u = v)) (fun p j => sheetVertex (sheetIndex p j)) 2 := by
  have inj : ∀ p q i j, i < 4 → j < 4 → sheetVertex (sheetIndex p i) = sheetVertex (sheetIndex q j) → sheetIndex p i = sheetIndex q j :=
    fun p q i j hi hj h => vertex_inj _ _ (sheetIndex_lt p i hi) (sheetIndex_lt q j hj) h
  have edge : ∀ p q i j, i < 4 → j < 4 → patchEdge (fun p j => sheetVertex (sheetIndex p j)) p i = patchEdge (fun p j => sheetVertex (sheetIndex p j)) q j →
      (sheetIndex p i = sheetIndex q j ∧ sheetIndex p ((i + 1) % 4) = sheetIndex q ((j + 1) % 4)) ∨
      (sheetIndex p i = sheetIndex q ((j + 1) % 4) ∧ sheetIndex p ((i + 1) % 4) = sheetIndex q j) := by
    intro p q i j hi hj h
    unfold patchEdge at h
    rw [Sym2.eq_iff] at h
    rcases h with ⟨a, b⟩ | ⟨a, b⟩
    · exact Or.inl ⟨inj _ _ _ _ hi hj a, inj _ _ _ _ (Nat.mod_lt _ (by norm_num)) (Nat.mod_lt _ (by norm_num)) b⟩
    · exact Or.inr ⟨inj _ _ _ _ hi (Nat.mod_lt _ (by norm_num)) a, inj _ _ _ _ (Nat.mod_lt _ (by norm_num)) hj b⟩
  refine ⟨fun p _ q _ i _ j _ => decide_eq_true_iff, fun p hp i hi j hj h => sheet_d p hp i hi j hj (inj p p i j hi hj h), ?_, ?_⟩
  · intro p hp q hq r hr i hi j hj k hk a b
    have a' := sheet_tw p hp q hq i hi j hj (edge p q i j hi hj a)
    have b' := sheet_tw p hp r hr i hi k hk (edge p r i k hi hk b)
    simp only [Prod.mk.injEq]
    omega
  · intro p hp q hq hpq i hi i' hi' j hj j' hj' a b
    have a' := sheet_tw p hp q hq i hi j hj (edge p q i j hi hj a)
    have b' := sheet_tw p hp q hq i' hi' j' hj' (edge p q i' j' hi' hj' b)
    omega

theorem sheet_corner (p : Nat) (hp : p < 2) (i : Nat) (hi : i < 4) : (sheet p (cornerPoint i)).1 = sheetVertex (sheetIndex p i) := by
  interval_cases p <;> interval_cases i <;> norm_num [sheet, cornerPoint, edgePoint, sheetVertex, sheetIndex]

theorem sheet_edge (p q i j : Nat) (hp : p < 2) (hq : q < 2) (hpq : p ≠ q) (hi : i < 4) (hj : j < 4) :
    ¬(sheetVertex (sheetIndex p i) = sheetVertex (sheetIndex q j) ∧ sheetVertex (sheetIndex p ((i + 1) % 4)) = sheetVertex (sheetIndex q ((j + 1) % 4))) ∧
    (sheetVertex (sheetIndex p i) = sheetVertex (sheetIndex q ((j + 1) % 4)) → sheetVertex (sheetIndex p ((i + 1) % 4)) = sheetVertex (sheetIndex q j) →
      (p = 0 ∧ q = 1 ∧ i = 1 ∧ j = 3) ∨ (p = 1 ∧ q = 0 ∧ i = 3 ∧ j = 1)) := by
  have lt : ∀ k, k % 4 < 4 := fun k => Nat.mod_lt _ (by norm_num)
  have t1 : ∀ p < 2, ∀ q < 2, ∀ i < 4, ∀ j < 4, p ≠ q → sheetIndex p i = sheetIndex q j → sheetIndex p ((i + 1) % 4) ≠ sheetIndex q ((j + 1) % 4) := by
    clear hp hq hpq hi hj p q i j
    intro p hp q hq i hi j hj
    interval_cases p <;> interval_cases q <;> interval_cases i <;> interval_cases j <;> simp [sheetIndex]
  have t2 : ∀ p < 2, ∀ q < 2, ∀ i < 4, ∀ j < 4, p ≠ q → sheetIndex p i = sheetIndex q ((j + 1) % 4) → sheetIndex p ((i + 1) % 4) = sheetIndex q j →
      (p = 0 ∧ q = 1 ∧ i = 1 ∧ j = 3) ∨ (p = 1 ∧ q = 0 ∧ i = 3 ∧ j = 1) := by
    clear hp hq hpq hi hj p q i j
    intro p hp q hq i hi j hj
    interval_cases p <;> interval_cases q <;> interval_cases i <;> interval_cases j <;> simp [sheetIndex]
  refine ⟨fun h => ?_, fun a b => ?_⟩
  · exact t1 p hp q hq i hi j hj hpq (vertex_inj _ _ (sheetIndex_lt _ _ hi) (sheetIndex_lt _ _ hj) h.1)
      (vertex_inj _ _ (sheetIndex_lt _ _ (lt _)) (sheetIndex_lt _ _ (lt _)) h.2)
  · exact t2 p hp q hq i hi j hj hpq (vertex_inj _ _ (sheetIndex_lt _ _ hi) (sheetIndex_lt _ _ (lt _)) a)
      (vertex_inj _ _ (sheetIndex_lt _ _ (lt _)) (sheetIndex_lt _ _ hj) b)

theorem sheet_water : Watertight (fun p j => sheetVertex (sheetIndex p j)) 2 (fun p x => (sheet p x).1) := by
  refine ⟨sheet_corner, fun p hp q hq hpq i hi j hj a b => absurd ⟨a, b⟩ (sheet_edge p q i j hp hq hpq hi hj).1, ?_⟩
  intro p hp q hq hpq i hi j hj a b s _ _
  rcases (sheet_edge p q i j hp hq hpq hi hj).2 a b with ⟨rfl, rfl, rfl, rfl⟩ | ⟨rfl, rfl, rfl, rfl⟩ <;> norm_num [sheet, edgePoint]

theorem sheet_embedded : Embedded (fun p j => sheetVertex (sheetIndex p j)) 2 sheet := by
  intro p hp q hq s r hs hr h
  have h2 : ∀ a b c : ℝ, (![a, b, c] : Fin 3 → ℝ) 2 = c := fun _ _ _ => rfl
  have e0 := congrFun (congrArg WithLp.ofLp h) 0
  have e1 := congrFun (congrArg WithLp.ofLp h) 1
  have e2 := congrFun (congrArg WithLp.ofLp h) 2
  obtain ⟨s0, s1, s2, s3⟩ := hs
  obtain ⟨r0, r1, r2, r3⟩ := hr
  interval_cases p <;> interval_cases q
  · simp [sheet] at e0 e1
    exact Or.inl ⟨rfl, Prod.ext e0 e1⟩
  · simp [sheet, h2] at e0 e1 e2
    have : s.1 = 1 := by nlinarith
    refine Or.inr (Or.inl ⟨by norm_num, 1, by norm_num, 3, by norm_num, s.2, s2, s3, Prod.ext this rfl, Or.inr ⟨rfl, rfl, Prod.ext ?_ ?_⟩⟩)
    · simp [edgePoint, ← e2]
    · simp [edgePoint, e1]
  · simp [sheet, h2] at e0 e1 e2
    have : r.1 = 1 := by nlinarith
    refine Or.inr (Or.inl ⟨by norm_num, 3, by norm_num, 1, by norm_num, 1 - s.2, by linarith, by linarith, Prod.ext ?_ ?_,
      Or.inr ⟨rfl, rfl, Prod.ext ?_ ?_⟩⟩)
    · simp [edgePoint, e2]
    · simp [edgePoint]
    · simp [edgePoint, this]
    · simp [edgePoint, e1]
  · simp [sheet, h2] at e1 e2
    exact Or.inl ⟨rfl, Prod.ext e2 e1⟩

theorem sheet_reg : RegularPatches 2 sheet := by
  intro p hp s hs h
  interval_cases p
  · have := congrFun (congrArg WithLp.ofLp h) 2
    simp [sheet, cross3] at this
  · have := congrFun (congrArg WithLp.ofLp h) 0
    simp [sheet, cross3] at this

theorem sheet_smooth : SmoothPatches 2 sheet := by
  intro p _
  refine ⟨sheet p, fun x _ => ?_, fun _ _ => rfl⟩
  unfold sheet
  by_cases hp : p = 0
  · simp only [hp, if_true]
    exact ((v3_smooth (by fun_prop) (by fun_prop) (by fun_prop)).prodMk
      ((v3_smooth (by fun_prop) (by fun_prop) (by fun_prop)).prodMk (v3_smooth (by fun_prop) (by fun_prop) (by fun_prop)))).contDiffAt
  · simp only [hp, if_false]
    exact ((v3_smooth (by fun_prop) (by fun_prop) (by fun_prop)).prodMk
      ((v3_smooth (by fun_prop) (by fun_prop) (by fun_prop)).prodMk (v3_smooth (by fun_prop) (by fun_prop) (by fun_prop)))).contDiffAt

end Smooth

open scoped Classical in
/-- All hypotheses on the surface of `C88_surface` are met by a flat and a curved patch with a common edge. -/
example : ∃ (near : V3 → V3 → Bool) (corner : Nat → Nat → V3), ConformingPatches near corner 2 ∧ Watertight corner 2 (fun p x => (sheet p x).1) ∧
    Embedded corner 2 sheet ∧ RegularPatches 2 sheet ∧ SmoothPatches 2 sheet :=
  ⟨_, _, sheet_conforming, sheet_water, sheet_embedded, sheet_reg, sheet_smooth⟩

end Bembel.Props
