import Mathlib.LinearAlgebra.Matrix.ToLinearEquiv
import Mathlib.LinearAlgebra.Matrix.NonsingularInverse
import Verif.Lemmas.BezierSystem
/-!
# Property theorems C08 (tensor products), C67: patches from open knot vectors
-/

set_option linter.unusedSectionVars false

open Finset

namespace Bembel.Props
open Bembel.Spec Bembel.Basis Bembel.Geo Bembel.Spl Bembel.Projector

/-! ## Tensor product de Boor -/

theorem deBoorMat_eq (M : Mat ℝ) (t : Nat → ℝ) (n p : Nat) (ht : OpenKnots t n p) (hp : p ≤ 20) (hM : M.cols = n) (pts : List ℝ)
    (hpts : ∀ x ∈ pts, 0 ≤ x ∧ x ≤ 1) :
    ∃ R, deBoorMat M ((List.range (n + p + 1)).map t) pts = some R ∧ R.rows = M.rows ∧ R.cols = pts.length ∧
      ∀ r c (h : c < pts.length), R.entry r c = ∑ i ∈ range n, bspline t n pts[c] p i * M.entry r i := by
  have h := C08_deBoorAll 20 n p (fun c => fun r => M.entry r c) t pts ht.mono ht.dim hp (by rw [ht.last]; exact ht.inner)
    (fun x hx => by rw [ht.clamped, ht.last]; exact hpts x hx)
  refine ⟨⟨M.rows, pts.length, fun r c => (pts.map fun x => ∑ i ∈ range n, bspline t n x p i • fun r => M.entry r i).getD c (fun _ => 0) r⟩, ?_, rfl,
    rfl, ?_⟩
  · unfold deBoorMat
    rw [hM, h]
    rfl
  · intro r c hc
    simp only [List.getD_eq_getElem?_getD, List.getElem?_map, List.getElem?_eq_getElem hc, Option.map_some, Option.getD_some]
    rw [Finset.sum_apply]
    rfl

/-- C08: `DeBoorTP` evaluates the tensor product spline, row `a` and column `b` of the result belong to the points `a` and `b`. -/
theorem C08_tensor (M : Mat ℝ) (tx ty : Nat → ℝ) (nx ny p q : Nat) (hx : OpenKnots tx nx p) (hy : OpenKnots ty ny q) (hp : p ≤ 20) (hq : q ≤ 20)
    (hc : M.cols = nx) (hr : M.rows = ny) (ptsX ptsY : List ℝ) (hX : ∀ x ∈ ptsX, 0 ≤ x ∧ x ≤ 1) (hY : ∀ y ∈ ptsY, 0 ≤ y ∧ y ≤ 1) :
    ∃ R, deBoorTP M ((List.range (nx + p + 1)).map tx) ((List.range (ny + q + 1)).map ty) ptsX ptsY = some R ∧ R.rows = ptsX.length ∧
      R.cols = ptsY.length ∧ ∀ a b (ha : a < ptsX.length) (hb : b < ptsY.length),
        R.entry a b = tensorSpline tx nx p ty ny q M.entry ptsX[a] ptsY[b] := by
  obtain ⟨R1, e1, r1, c1, v1⟩ := deBoorMat_eq M tx nx p hx hp hc ptsX hX
  obtain ⟨R2, e2, r2, c2, v2⟩ := deBoorMat_eq (transposeMat R1) ty ny q hy hq (by simp [transposeMat, r1, hr]) ptsY hY
  refine ⟨R2, ?_, by rw [r2]; exact c1, c2, ?_⟩
  · unfold deBoorTP
    rw [e1]
    exact e2
  · intro a b ha hb
    rw [v2 a b hb]
    unfold tensorSpline
    rw [sum_comm]
    refine sum_congr rfl fun j _ => ?_
    show _ * R1.entry j a = _
    rw [v1 j a ha, mul_sum]
    exact sum_congr rfl fun i _ => by ring

/-! ## The extraction matrix -/

theorem tensor_unit (tx ty : Nat → ℝ) (nx ny p q i j : Nat) (hi : i < nx) (hj : j < ny) (u v : ℝ) :
    tensorSpline tx nx p ty ny q (upd2 (fun _ _ => 0) j i 1) u v = bspline tx nx u p i * bspline ty ny v q j := by
  unfold tensorSpline
  rw [sum_eq_single i, sum_eq_single j]
  · simp [upd2]
  · intro b _ hb; simp [upd2, hb]
  · intro h; exact absurd (mem_range.2 hj) h
  · intro b _ hb
    exact sum_eq_zero fun c _ => by simp [upd2, hb]
  · intro h; exact absurd (mem_range.2 hi) h

section
variable {tx ty : Nat → ℝ} {nx ny p q : Nat} {ux uy : List ℝ} {lx ly : Nat → Nat}

theorem pts_mem {t : Nat → ℝ} {n p : Nat} {u : List ℝ} {l : Nat → Nat} (h : Dir t n p u l) :
    ∀ x ∈ makeInterpolationPoints (makeInterpolationMask (p + 1)) u, 0 ≤ x ∧ x ≤ 1 := by
  rw [h.points_eq]
  intro x hx
  obtain ⟨i, hi, rfl⟩ := List.mem_map.1 hx
  have hi := List.mem_range.1 hi
  obtain ⟨a, b⟩ := h.pt_mem hi
  obtain ⟨c, d⟩ := h.range (h.span_lt hi)
  exact ⟨by linarith, by linarith⟩

/-- Two dimensional kernel. -/
theorem kernel_trivial (hx : Dir tx nx p ux lx) (hy : Dir ty ny q uy ly) (A : Nat → Nat → ℝ)
    (hA : ∀ x < (ux.length - 1) * (p + 1), ∀ y < (uy.length - 1) * (q + 1), ∀ ix < (ux.length - 1) * (p + 1), ∀ iy < (uy.length - 1) * (q + 1),
        A (y * ((ux.length - 1) * (p + 1)) + x) (ix * ((uy.length - 1) * (q + 1)) + iy) = coll p x ix * coll q y iy) (Y : Nat → ℝ)
    (h0 : ∀ r < (ux.length - 1) * (p + 1) * ((uy.length - 1) * (q + 1)),
      ∑ c ∈ range ((ux.length - 1) * (p + 1) * ((uy.length - 1) * (q + 1))), A r c * Y c = 0) :
    ∀ c < (ux.length - 1) * (p + 1) * ((uy.length - 1) * (q + 1)), Y c = 0 := by
  set NX := (ux.length - 1) * (p + 1) with hNX
  set NY := (uy.length - 1) * (q + 1) with hNY
  have h1 : ∀ y < NY, ∀ ix < NX, ∑ iy ∈ range NY, coll q y iy * Y (ix * NY + iy) = 0 := by
    intro y hyy
    refine one_dim (ux.length - 1) p (fun ix => ∑ iy ∈ range NY, coll q y iy * Y (ix * NY + iy)) fun x hxx => ?_
    have := h0 (y * NX + x) (by
      calc y * NX + x < (y + 1) * NX := by rw [Nat.succ_mul]; omega
        _ ≤ NY * NX := Nat.mul_le_mul_right _ hyy
        _ = NX * NY := Nat.mul_comm _ _)
    rw [H2.sum_range_mul] at this
    rw [← this]
    refine sum_congr rfl fun ix hix => ?_
    rw [mul_sum]
    refine sum_congr rfl fun iy hiy => ?_
    rw [hA x hxx y hyy ix (mem_range.1 hix) iy (mem_range.1 hiy)]
    ring
  intro c hc
  have hNY0 : 0 < NY := by
    rcases Nat.eq_zero_or_pos NY with h | h
    · rw [h] at hc; omega
    · exact h
  have hs : c / NY < NX := (Nat.div_lt_iff_lt_mul hNY0).2 hc
  have := one_dim (uy.length - 1) q (fun iy => Y (c / NY * NY + iy)) (fun y hyy => h1 y hyy (c / NY) hs) (c % NY) (Nat.mod_lt _ hNY0)
  rwa [Nat.div_add_mod' c NY] at this

/-- One column of the extraction matrix. -/
theorem column_eq (inv) (hinv : InvertsMatrices inv) (hx : Dir tx nx p ux lx) (hy : Dir ty ny q uy ly) (A : Nat → Nat → ℝ)
    (hA : ∀ x < (ux.length - 1) * (p + 1), ∀ y < (uy.length - 1) * (q + 1), ∀ ix < (ux.length - 1) * (p + 1), ∀ iy < (uy.length - 1) * (q + 1),
        A (y * ((ux.length - 1) * (p + 1)) + x) (ix * ((uy.length - 1) * (q + 1)) + iy) = coll p x ix * coll q y iy) (i j : Nat)
    (small : Nat → ℝ) (hs : ∀ x < (ux.length - 1) * (p + 1), ∀ y < (uy.length - 1) * (q + 1), small (y * ((ux.length - 1) * (p + 1)) + x) =
      bspline tx nx (pt tx lx p x) p i * bspline ty ny (pt ty ly q y) q j) (ix iy : Nat) (hix : ix < (ux.length - 1) * (p + 1))
    (hiy : iy < (uy.length - 1) * (q + 1)) :
    ∑ k ∈ range ((ux.length - 1) * (p + 1) * ((uy.length - 1) * (q + 1))),
      inv ((ux.length - 1) * (p + 1) * ((uy.length - 1) * (q + 1))) A (ix * ((uy.length - 1) * (q + 1)) + iy) k * small k =
      ext tx lx p ix i * ext ty ly q iy j := by
  have hk := hinv _ A (kernel_trivial hx hy A hA)
  set NX := (ux.length - 1) * (p + 1) with hNX
  set NY := (uy.length - 1) * (q + 1) with hNY
  have hlt : ∀ a b, a < NX → b < NY → a * NY + b < NX * NY := fun a b ha hb => by
    calc a * NY + b < (a + 1) * NY := by rw [Nat.succ_mul]; omega
      _ ≤ NX * NY := Nat.mul_le_mul_right _ ha
  -- the coefficients solve the system
  have hsol : ∀ k < NX * NY, small k = ∑ c ∈ range (NX * NY), A k c * (ext tx lx p (c / NY) i * ext ty ly q (c % NY) j) := by
    intro k hkk
    have hNX0 : 0 < NX := by omega
    have e := Nat.div_add_mod' k NX
    have hy' : k / NX < NY := (Nat.div_lt_iff_lt_mul hNX0).2 (by rwa [Nat.mul_comm])
    have hx' : k % NX < NX := Nat.mod_lt _ hNX0
    rw [← e, hs _ hx' _ hy', ← hx.coll_ext hx', ← hy.coll_ext hy', H2.sum_range_mul NX NY, sum_mul_sum]
    refine sum_congr rfl fun a ha => sum_congr rfl fun b hb => ?_
    have ha := mem_range.1 ha
    have hb := mem_range.1 hb
    obtain ⟨d1, d2⟩ := divmod_pair (m := NY) (a := a) (b := b) hb
    rw [hA _ hx' _ hy' a ha b hb, d1, d2]
    ring
  rw [sum_congr rfl fun k hk => by rw [hsol k (mem_range.1 hk), mul_sum], sum_comm,
    sum_congr rfl fun c hc => by
      rw [sum_congr rfl fun k _ => (mul_assoc _ _ _).symm, ← sum_mul, hk _ (hlt ix iy hix hiy) c (mem_range.1 hc)]]
  rw [sum_eq_single (ix * NY + iy)]
  · obtain ⟨d1, d2⟩ := divmod_pair (m := NY) (a := ix) (b := iy) hiy
    rw [if_pos rfl, one_mul, d1, d2]
  · intro c _ hc; rw [if_neg (Ne.symm hc), zero_mul]
  · intro h; exact absurd (mem_range.2 (hlt ix iy hix hiy)) h

theorem list_sum_range (n : Nat) (f : Nat → ℝ) : ((List.range n).map f).sum = ∑ i ∈ range n, f i := by
  rw [Finset.sum_eq_multiset_sum]; simp [Finset.range, Multiset.range]

/-- Entries that are not larger than `1e-15` are dropped. -/
noncomputable def prune (v : ℝ) : ℝ := if |v| > 1 / 1000 * (1 / 1000000000000) then v else 0

theorem makeProjection_eq (junk : Nat → ℝ) (inv) (hinv : InvertsMatrices inv) (hx : Dir tx nx p ux lx) (hy : Dir ty ny q uy ly) (hp : p ≤ 20)
    (hq : q ≤ 20) :
    ∃ phi, makeProjection junk inv ((List.range (nx + p + 1)).map tx) ((List.range (ny + q + 1)).map ty) ux uy (p + 1) (q + 1) = some phi ∧
      phi.rows = (ux.length - 1) * (p + 1) * ((uy.length - 1) * (q + 1)) ∧ phi.cols = nx * ny ∧
      ∀ ix < (ux.length - 1) * (p + 1), ∀ iy < (uy.length - 1) * (q + 1), ∀ i < nx, ∀ j < ny,
        phi.at' (ix * ((uy.length - 1) * (q + 1)) + iy) (i * ny + j) = prune (ext tx lx p ix i * ext ty ly q iy j) := by
  obtain ⟨A, hA1, hA2⟩ := bezierSystem_eq junk hx hy hp hq
  set NX := (ux.length - 1) * (p + 1) with hNX
  set NY := (uy.length - 1) * (q + 1) with hNY
  have sx : ((List.range (nx + p + 1)).map tx).length - (p + 1) = nx := by simp
  have sy : ((List.range (ny + q + 1)).map ty).length - (q + 1) = ny := by simp
  have lenx : (makeInterpolationPoints (makeInterpolationMask (p + 1)) ux).length = NX := by rw [points_length]; simp [makeInterpolationMask, hNX]
  have leny : (makeInterpolationPoints (makeInterpolationMask (q + 1)) uy).length = NY := by rw [points_length]; simp [makeInterpolationMask, hNY]
  have hlt : ∀ a b, a < NX → b < NY → a * NY + b < NX * NY := fun a b ha hb => by
    calc a * NY + b < (a + 1) * NY := by rw [Nat.succ_mul]; omega
      _ ≤ NX * NY := Nat.mul_le_mul_right _ ha
  -- the columns
  have main : ∀ ix < NX, ∀ iy < NY, ∀ i < nx, ∀ j < ny, ∃ st, extractionColumns junk (inv (NX * NY) A) ((List.range (nx + p + 1)).map tx)
      ((List.range (ny + q + 1)).map ty) (makeInterpolationPoints (makeInterpolationMask (p + 1)) ux)
      (makeInterpolationPoints (makeInterpolationMask (q + 1)) uy) (NX * NY) nx ny = some st ∧
      st (ix * NY + iy) (i * ny + j) = ext tx lx p ix i * ext ty ly q iy j := by
    intro ix hix iy hiy i0 hi0 j0 hj0
    unfold extractionColumns
    let I : (Nat → Nat → ℝ) × (Nat → Nat → ℝ) → Prop := fun st => st.1 = fun _ _ => 0
    let G : (Nat → Nat → ℝ) × (Nat → Nat → ℝ) → Prop := fun st =>
      st.2 (ix * NY + iy) (i0 * ny + j0) = ext tx lx p ix i0 * ext ty ly q iy j0
    have body : ∀ i < nx, ∀ j < ny, ∀ st : (Nat → Nat → ℝ) × (Nat → Nat → ℝ), I st → ∃ st', (do
        let unit := upd2 st.1 j i 1
        let vals ← deBoorTP ⟨ny, nx, unit⟩ ((List.range (nx + p + 1)).map tx) ((List.range (ny + q + 1)).map ty)
          (makeInterpolationPoints (makeInterpolationMask (p + 1)) ux) (makeInterpolationPoints (makeInterpolationMask (q + 1)) uy)
        let small := Geo.unroll junk vals
        if small.length ≠ NX * NY then none
        else
          let proj := fun r c => if c = i * ny + j ∧ r < NX * NY then
            ((List.range (NX * NY)).map fun k => inv (NX * NY) A r k * small.getD k 0).sum else st.2 r c
          some (upd2 unit j i 0, proj)) = some st' ∧ I st' ∧ (G st → G st') ∧ (i = i0 → j = j0 → True → G st') := by
      intro i hi j hj st hI
      obtain ⟨R, e1, r1, c1, v1⟩ := C08_tensor ⟨ny, nx, upd2 st.1 j i 1⟩ tx ty nx ny p q hx.knots hy.knots hp hq rfl rfl
        (makeInterpolationPoints (makeInterpolationMask (p + 1)) ux) (makeInterpolationPoints (makeInterpolationMask (q + 1)) uy)
        (pts_mem hx) (pts_mem hy)
      rw [lenx] at r1
      rw [leny] at c1
      have hlen : (Geo.unroll junk R).length = NX * NY := by rw [unroll_length, r1, c1, Nat.mul_comm]
      have hcol : ((List.range (NX * NY)).map fun k => inv (NX * NY) A (ix * NY + iy) k * (Geo.unroll junk R).getD k 0).sum =
          ext tx lx p ix i * ext ty ly q iy j := by
        rw [list_sum_range]
        refine column_eq inv hinv hx hy A hA2 i j (fun k => (Geo.unroll junk R).getD k 0) ?_ ix iy hix hiy
        intro x hxx y hyy
        have := unroll_getElem? junk R y x (by rw [c1]; exact hyy) (by rw [r1]; exact hxx)
        rw [r1] at this
        simp only [List.getD_eq_getElem?_getD, ← hNX, this, Option.getD_some]
        rw [v1 x y (by rw [lenx]; exact hxx) (by rw [leny]; exact hyy)]
        have hI' : st.1 = fun _ _ => 0 := hI
        simp only [hI', tensor_unit _ _ _ _ _ _ _ _ hi hj]
        have p1 := hx.point_get (x := x) hxx
        have p2 := hy.point_get (x := y) hyy
        rw [List.getElem?_eq_getElem (by rw [lenx]; exact hxx), Option.some.injEq] at p1
        rw [List.getElem?_eq_getElem (by rw [leny]; exact hyy), Option.some.injEq] at p2
        rw [p1, p2]
      simp only [e1, Option.bind_eq_bind, Option.bind_some, hlen, ne_eq, not_true_eq_false, if_false]
      have hG : i = i0 → j = j0 → (if i0 * ny + j0 = i * ny + j ∧ ix * NY + iy < NX * NY then
          ((List.range (NX * NY)).map fun k => inv (NX * NY) A (ix * NY + iy) k * (Geo.unroll junk R).getD k 0).sum else
          st.2 (ix * NY + iy) (i0 * ny + j0)) = ext tx lx p ix i0 * ext ty ly q iy j0 := by
        rintro rfl rfl
        rw [if_pos ⟨rfl, hlt ix iy hix hiy⟩, hcol]
      refine ⟨_, rfl, ?_, ?_, fun a b _ => hG a b⟩
      · show upd2 (upd2 st.1 j i 1) j i 0 = _
        have hI' : st.1 = fun _ _ => 0 := hI
        rw [hI']
        funext a b
        unfold upd2
        split <;> rfl
      · intro hg
        by_cases hc : i0 * ny + j0 = i * ny + j
        · have a1 := divmod_pair (m := ny) (a := i0) (b := j0) hj0
          have a2 := divmod_pair (m := ny) (a := i) (b := j) hj
          rw [← hc] at a2
          exact hG (by rw [← a2.2, a1.2]) (by rw [← a2.1, a1.1])
        · show (if i0 * ny + j0 = i * ny + j ∧ _ then _ else _) = _
          rw [if_neg (fun h => hc h.1)]
          exact hg
    obtain ⟨st, a1, -, -, a2⟩ := forOpt_hit2 nx ny _ I G True i0 j0 hj0 body ((fun _ _ => 0 : Nat → Nat → ℝ), fun r _ => junk r) rfl
    refine ⟨st.2, ?_, a2 hi0 trivial⟩
    rw [a1]
    rfl
  have h2x := hx.good.two
  have h2y := hy.good.two
  have hX : 0 < NX := Nat.mul_pos (by omega) (by omega)
  have hY : 0 < NY := Nat.mul_pos (by omega) (by omega)
  obtain ⟨proj, hproj, -⟩ := main 0 hX 0 hY 0 (by have := hx.knots.dim; omega) 0 (by have := hy.knots.dim; omega)
  refine ⟨⟨NX * NY, nx * ny, fun r c => if |proj r c| > 1 / 1000 * (1 / 1000000000000) then proj r c else 0⟩, ?_, rfl, rfl, ?_⟩
  · unfold makeProjection
    simp only [sx, sy, lenx, leny, ← hNX, ← hNY, hA1, hproj, Option.bind_eq_bind, Option.bind_some]
    rw [if_neg (by simp [makeInterpolationMask, hNX, Nat.mul_comm]), if_neg]
    rintro ⟨y, h1, c, h2, h3⟩
    refine h3 (kernel_trivial hx hy A hA2 y ?_ c h2)
    intro r hr
    rw [← list_sum_range]
    exact h1 r hr
  · intro ix hix iy hiy i hi j hj
    obtain ⟨st, h1, h2⟩ := main ix hix iy hiy i hi j hj
    rw [hproj, Option.some.injEq] at h1
    subst h1
    show (if |proj _ _| > _ then proj _ _ else 0) = _
    rw [h2]
    rfl

/-! ## The data of the patch -/

theorem data_four (size len : Nat) (tmp : Nat → List ℝ) (hlen : ∀ k < 4, (tmp k).length = len) (hsz : size = 4 * len) :
    ∃ d, forOpt 4 (fun data i => scatter size i (tmp i) data) (fun _ => 0) = some d ∧
      ∀ n < len, ∀ k < 4, d (4 * n + k) = (tmp k).getD n 0 := by
  have h : ∀ k < 4, ∀ j < (tmp k).length, j * 4 + k < size := fun k hk j hj => by rw [hlen k hk] at hj; omega
  obtain ⟨d0, a0, b0⟩ := scatter_eq size 0 (tmp 0) (fun _ => 0) (h 0 (by omega))
  obtain ⟨d1, a1, b1⟩ := scatter_eq size 1 (tmp 1) d0 (h 1 (by omega))
  obtain ⟨d2, a2, b2⟩ := scatter_eq size 2 (tmp 2) d1 (h 2 (by omega))
  obtain ⟨d3, a3, b3⟩ := scatter_eq size 3 (tmp 3) d2 (h 3 (by omega))
  refine ⟨d3, ?_, ?_⟩
  · rw [forOpt_succ, forOpt_succ, forOpt_succ, forOpt_succ, forOpt_zero]
    simp only [Option.bind_some, a0, a1, a2, a3]
  · intro n hn k hk
    have l0 := hlen 0 (by omega)
    have l1 := hlen 1 (by omega)
    have l2 := hlen 2 (by omega)
    have l3 := hlen 3 (by omega)
    rw [b3, b2, b1, b0, l0, l1, l2, l3]
    rcases (show k = 0 ∨ k = 1 ∨ k = 2 ∨ k = 3 by omega) with rfl | rfl | rfl | rfl
    · rw [if_neg (by omega), if_neg (by omega), if_neg (by omega), if_pos (by omega), show (4 * n + 0 - 0) / 4 = n by omega]
    · rw [if_neg (by omega), if_neg (by omega), if_pos (by omega), show (4 * n + 1 - 1) / 4 = n by omega]
    · rw [if_neg (by omega), if_pos (by omega), show (4 * n + 2 - 2) / 4 = n by omega]
    · rw [if_pos (by omega), show (4 * n + 3 - 3) / 4 = n by omega]

/-- The Bezier net of the surface. -/
noncomputable def net (tx : Nat → ℝ) (nx p : Nat) (lx : Nat → Nat) (ty : Nat → ℝ) (ny q : Nat) (ly : Nat → Nat) (c : Nat → Nat → ℝ) (I J : Nat) : ℝ :=
  ∑ i ∈ range nx, ∑ j ∈ range ny, ext tx lx p I i * ext ty ly q J j * c j i

/-- No extraction coefficient is dropped. -/
def NoTiny (tx : Nat → ℝ) (nx p : Nat) (ux : List ℝ) (lx : Nat → Nat) (ty : Nat → ℝ) (ny q : Nat) (uy : List ℝ) (ly : Nat → Nat) : Prop :=
  ∀ I < (ux.length - 1) * (p + 1), ∀ J < (uy.length - 1) * (q + 1), ∀ i < nx, ∀ j < ny,
    prune (ext tx lx p I i * ext ty ly q J j) = ext tx lx p I i * ext ty ly q J j

theorem prune_err (v : ℝ) : |prune v - v| ≤ 1 / 1000 * (1 / 1000000000000) := by
  unfold prune
  split
  · rw [sub_self, abs_zero]; norm_num
  · rename_i h
    rw [zero_sub, abs_neg]
    exact not_lt.1 h

theorem net_err (c : Nat → Nat → ℝ) (I J : Nat) :
    |∑ i ∈ range nx, ∑ j ∈ range ny, prune (ext tx lx p I i * ext ty ly q J j) * c j i - net tx nx p lx ty ny q ly c I J| ≤
      1 / 1000 * (1 / 1000000000000) * ∑ i ∈ range nx, ∑ j ∈ range ny, |c j i| := by
  unfold net
  rw [← sum_sub_distrib, mul_sum]
  refine (abs_sum_le_sum_abs _ _).trans (sum_le_sum fun i _ => ?_)
  rw [← sum_sub_distrib, mul_sum]
  refine (abs_sum_le_sum_abs _ _).trans (sum_le_sum fun j _ => ?_)
  rw [← sub_mul, abs_mul]
  exact mul_le_mul_of_nonneg_right (prune_err _) (abs_nonneg _)

/-- On one span the Bezier coefficients are the control points. -/
theorem polar_bezier (t : Nat → ℝ) (p : Nat) (h0 : ∀ i ≤ p, t i = 0) (h1 : ∀ i, p < i → i ≤ 2 * p + 1 → t i = 1) : ∀ (us : List ℝ) (a : Nat),
    (∀ u ∈ us, u = 0 ∨ u = 1) → us.count 0 = a → us.length ≤ p → ∀ i, i ≤ p → polar t p us i = if i + a = p then 1 else 0
  | [], a, _, ha, _, i, hi => by
    simp at ha
    subst ha
    simp [polar]
  | v :: us, a, hu, ha, hl, i, hi => by
    have hu' : ∀ u ∈ us, u = 0 ∨ u = 1 := fun u h => hu u (List.mem_cons_of_mem _ h)
    have hcl : us.count 0 ≤ us.length := List.count_le_length
    simp only [List.length_cons] at hl
    have ih := polar_bezier t p h0 h1 us (us.count 0) hu' rfl (by omega)
    have next : polar t p us (i + 1) = if i + 1 + us.count 0 = p then 1 else 0 := by
      by_cases hip : i + 1 ≤ p
      · exact ih (i + 1) hip
      · rw [polar_support t p us (i + 1) (by omega), if_neg (by omega)]
    rw [polar, ih i hi, next]
    rcases hu v List.mem_cons_self with rfl | rfl
    · rw [List.count_cons_self] at ha
      rw [h0 i hi, sub_zero, zero_div, zero_mul, zero_add, sub_zero]
      by_cases hc : i + 1 + us.count 0 = p
      · rw [if_pos hc, if_pos (by omega), h0 (i + 1) (by omega), h1 (i + us.length + 2) (by omega) (by omega)]; norm_num
      · rw [if_neg hc, if_neg (by omega), mul_zero]
    · rw [List.count_cons_of_ne (by norm_num)] at ha
      subst ha
      by_cases hc : i + us.count 0 = p
      · rw [if_pos hc, if_neg (by omega), mul_zero, add_zero, h0 i hi, h1 (i + us.length + 1) (by omega) (by omega)]; norm_num
      · rw [if_neg hc, mul_zero, zero_add]
        by_cases hc' : i + 1 + us.count 0 = p
        · rw [if_pos hc', h1 (i + us.length + 2) (by omega) (by omega)]; norm_num
        · rw [if_neg hc', mul_zero]

theorem single_span (h : Dir tx nx p ux lx) (h2 : ux.length = 2) : nx = p + 1 ∧ ∀ I ≤ p, ∀ i ≤ p, ext tx lx p I i = if i = I then 1 else 0 := by
  have hk := h.knots
  have hu := eq01 ux h.good h2
  have h01 : ∀ i ≤ nx + p, tx i = 0 ∨ tx i = 1 := by
    intro i hi
    have := h.mem i hi
    rw [hu] at this
    simpa using this
  have hd := hk.dim
  have a1 : tx (p + 1) = 1 := by
    rcases h01 (p + 1) (by omega) with h | h
    · have := hk.start; linarith
    · exact h
  have a2 : tx (nx - 1) = 0 := by
    rcases h01 (nx - 1) (by omega) with h | h
    · exact h
    · have := hk.inner; linarith
  have hn : nx = p + 1 := by
    by_contra hne
    have := hk.mono (show p + 1 ≤ nx - 1 by omega)
    linarith
  refine ⟨hn, fun I hI i hi => ?_⟩
  have z0 : ∀ i ≤ p, tx i = 0 := fun i hi => le_antisymm (by rw [← hk.clamped]; exact hk.mono hi) (by rw [← hk.first]; exact hk.mono (by omega))
  have z1 : ∀ i, p < i → i ≤ 2 * p + 1 → tx i = 1 := fun i h1 h2 =>
    le_antisymm (by rw [← hk.final]; exact hk.mono (by omega)) (by rw [← a1]; exact hk.mono (by omega))
  obtain ⟨s1, s2, -, -⟩ := h.span 0 (by omega)
  have hl : lx 0 = p := by omega
  unfold Spl.ext bezier
  rw [Nat.div_eq_of_lt (by omega : I < p + 1), Nat.mod_eq_of_lt (by omega : I < p + 1), hl, z0 p le_rfl, a1]
  rw [polar_bezier tx p z0 z1 _ (p - I) (by
    intro v hv
    rw [List.mem_append, List.mem_replicate, List.mem_replicate] at hv
    rcases hv with ⟨_, rfl⟩ | ⟨_, rfl⟩ <;> simp) (by
    rw [List.count_append, List.count_replicate_self, List.count_replicate]; simp) (by simp; omega) i hi]
  by_cases hii : i = I
  · rw [if_pos hii, if_pos (by omega)]
  · rw [if_neg hii, if_neg (by omega)]

/-- The constructed patch stores the Bezier net. -/
theorem initPatch_net (junk : Nat → ℝ) (inv) (hinv : InvertsMatrices inv) (hx : Dir tx nx p ux lx) (hy : Dir ty ny q uy ly) (hp : p ≤ 20)
    (hq : q ≤ 20) (xyzw : Nat → Mat ℝ) (hr : ∀ k < 4, (xyzw k).rows = ny) (hc : ∀ k < 4, (xyzw k).cols = nx) :
    ∃ pa P, initPatchGeneral junk inv xyzw ((List.range (nx + p + 1)).map tx) ((List.range (ny + q + 1)).map ty) = some pa ∧
      pa.px = p + 1 ∧ pa.py = q + 1 ∧ pa.ux = ux ∧ pa.uy = uy ∧ Represents pa P ∧
      (∀ I < (ux.length - 1) * (p + 1), ∀ J < (uy.length - 1) * (q + 1), ∀ k : Fin 4,
        |P I J k - net tx nx p lx ty ny q ly (xyzw k).entry I J| ≤ 1 / 1000 * (1 / 1000000000000) * ∑ i ∈ range nx, ∑ j ∈ range ny, |(xyzw k).entry j i|) ∧
      (NoTiny tx nx p ux lx ty ny q uy ly → ∀ I < (ux.length - 1) * (p + 1), ∀ J < (uy.length - 1) * (q + 1), ∀ k : Fin 4,
        P I J k = net tx nx p lx ty ny q ly (xyzw k).entry I J) := by
  have eqx : nx + p + 1 - nx = p + 1 := by omega
  have eqy : ny + q + 1 - ny = q + 1 := by omega
  have h2x := hx.good.two
  have h2y := hy.good.two
  set NX := (ux.length - 1) * (p + 1) with hNX
  set NY := (uy.length - 1) * (q + 1) with hNY
  have hsize : 4 * ((p + 1) * (ux.length - 1) * (q + 1) * (uy.length - 1)) = 4 * (NX * NY) := by rw [hNX, hNY]; ring
  have hlt : ∀ a b, a < NX → b < NY → a * NY + b < NX * NY := fun a b ha hb => by
    calc a * NY + b < (a + 1) * NY := by rw [Nat.succ_mul]; omega
      _ ≤ NX * NY := Nat.mul_le_mul_right _ ha
  -- reading the data
  have rep : ∀ (d : Nat → ℝ) (P : Nat → Nat → Fin 4 → ℝ), (∀ I < NX, ∀ J < NY, ∀ k : Fin 4, d (4 * (I * NY + J) + k) = P I J k) →
      Represents (⟨(List.range (4 * ((p + 1) * (ux.length - 1) * (q + 1) * (uy.length - 1)))).map d, p + 1, q + 1, ux, uy⟩ : Patch ℝ) P := by
    intro d P hd
    refine ⟨hx.good, hy.good, by simp, by simp; omega, by simp, by simp; omega, ?_⟩
    intro i j hi hj k
    simp only at hi hj ⊢
    have hi' : i < NX := by rw [hNX, Nat.mul_comm]; exact hi
    have hj' : j < NY := by rw [hNY, Nat.mul_comm]; exact hj
    have := hlt i j hi' hj'
    have hk := k.2
    rw [← hNY, List.getElem?_map, List.getElem?_range (by rw [hsize]; omega), Option.map_some, hd i hi' j hj' k]
  by_cases h22 : ux.length = 2 ∧ uy.length = 2
  · obtain ⟨n1, e1⟩ := single_span hx h22.1
    obtain ⟨n2, e2⟩ := single_span hy h22.2
    have hNXp : NX = p + 1 := by rw [hNX, h22.1]; simp
    have hNYq : NY = q + 1 := by rw [hNY, h22.2]; simp
    obtain ⟨d, a1, a2⟩ := data_four (4 * ((p + 1) * (ux.length - 1) * (q + 1) * (uy.length - 1))) (NX * NY) (fun k => unroll junk (xyzw k)) (by
      intro k hk
      rw [unroll_length, hr k hk, hc k hk, n1, n2, hNXp, hNYq]) hsize
    have hnet : ∀ I < NX, ∀ J < NY, ∀ k : Fin 4, net tx nx p lx ty ny q ly (xyzw k).entry I J = (xyzw k).entry J I := by
      intro I hI J hJ k
      unfold net
      rw [sum_eq_single I, sum_eq_single J]
      · rw [e1 I (by omega) I (by omega), e2 J (by omega) J (by omega)]; simp
      · intro j hj hne
        have := mem_range.1 hj
        rw [e2 J (by omega) j (by omega), if_neg hne]; simp
      · intro h; exact absurd (mem_range.2 (by omega)) h
      · intro i hi hne
        have := mem_range.1 hi
        exact sum_eq_zero fun j _ => by rw [e1 I (by omega) i (by omega), if_neg hne]; simp
      · intro h; exact absurd (mem_range.2 (by omega)) h
    refine ⟨_, fun I J k => (xyzw k).entry J I, ?_, rfl, rfl, rfl, rfl, rep d _ ?_, ?_, ?_⟩
    · unfold initPatchGeneral
      simp only [hx.uniq, hy.uniq, hr 0 (by omega), hc 0 (by omega), Option.bind_eq_bind, Option.bind_some, List.length_map, List.length_range, eqx, eqy]
      rw [if_neg (by omega), if_pos h22]
      simp only [a1, Option.bind_some]
    · intro I hI J hJ k
      rw [a2 (I * NY + J) (hlt I J hI hJ) k k.2]
      have := unroll_getElem? junk (xyzw k) I J (by rw [hc k k.2]; omega) (by rw [hr k k.2]; omega)
      rw [hr k k.2, n2, ← hNYq] at this
      rw [List.getD_eq_getElem?_getD, this]; rfl
    · intro I hI J hJ k
      rw [hnet I hI J hJ k, sub_self, abs_zero]
      exact mul_nonneg (by norm_num) (sum_nonneg fun _ _ => sum_nonneg fun _ _ => abs_nonneg _)
    · intro _ I hI J hJ k
      rw [hnet I hI J hJ k]
  · obtain ⟨phi, f1, f2, f3, f4⟩ := makeProjection_eq junk inv hinv hx hy hp hq
    rw [← hNX, ← hNY] at f2 f4
    obtain ⟨d, a1, a2⟩ := data_four (4 * ((p + 1) * (ux.length - 1) * (q + 1) * (uy.length - 1))) (NX * NY)
      (fun k => (List.range phi.rows).map fun r => ((List.range phi.cols).map fun c => (unroll junk (xyzw k)).getD c 0 * phi.at' r c).sum) (by
      intro k hk
      rw [List.length_map, List.length_range, f2]) hsize
    have hlen : ∀ k < 4, (unroll junk (xyzw k)).length = phi.cols := fun k hk => by rw [unroll_length, hr k hk, hc k hk, f3]
    have hloop : forOpt 4 (fun data i => if (unroll junk (xyzw i)).length ≠ phi.cols then none
        else scatter (4 * ((p + 1) * (ux.length - 1) * (q + 1) * (uy.length - 1))) i ((List.range phi.rows).map fun r =>
          ((List.range phi.cols).map fun c => (unroll junk (xyzw i)).getD c 0 * phi.at' r c).sum) data) (fun _ => 0) = some d := by
      rw [← a1]
      rw [forOpt_succ, forOpt_succ, forOpt_succ, forOpt_succ, forOpt_succ, forOpt_succ, forOpt_succ, forOpt_succ, forOpt_zero, forOpt_zero]
      simp only [Option.bind_some, hlen 0 (by omega), hlen 1 (by omega), hlen 2 (by omega), hlen 3 (by omega), ne_eq, not_true_eq_false, if_false]
    refine ⟨_, fun I J k => ∑ i ∈ range nx, ∑ j ∈ range ny, prune (ext tx lx p I i * ext ty ly q J j) * (xyzw k).entry j i, ?_, rfl, rfl, rfl, rfl,
      rep d _ ?_, fun I _ J _ k => net_err _ I J, ?_⟩
    · unfold initPatchGeneral
      simp only [hx.uniq, hy.uniq, hr 0 (by omega), hc 0 (by omega), Option.bind_eq_bind, Option.bind_some, List.length_map, List.length_range, eqx, eqy]
      rw [if_neg (by omega), if_neg h22]
      simp only [f1, hloop, Option.bind_some]
    · intro I hI J hJ k
      have hlt' := hlt I J hI hJ
      rw [a2 (I * NY + J) hlt' k k.2, List.getD_eq_getElem?_getD, List.getElem?_map, List.getElem?_range (by rw [f2]; exact hlt'), Option.map_some,
        Option.getD_some, list_sum_range, f3, H2.sum_range_mul]
      refine sum_congr rfl fun i hi => sum_congr rfl fun j hj => ?_
      have hi := mem_range.1 hi
      have hj := mem_range.1 hj
      rw [f4 I hI J hJ i hi j hj]
      have := unroll_getElem? junk (xyzw k) i j (by rw [hc k k.2]; exact hi) (by rw [hr k k.2]; exact hj)
      rw [hr k k.2] at this
      rw [List.getD_eq_getElem?_getD, this, Option.getD_some, mul_comm]
    · intro hnt I hI J hJ k
      unfold net
      exact sum_congr rfl fun i hi => sum_congr rfl fun j hj => by rw [hnt I hI J hJ i (mem_range.1 hi) j (mem_range.1 hj)]

theorem sum4_swap (a b c d : Nat) (f : Nat → Nat → Nat → Nat → ℝ) : ∑ i ∈ range a, ∑ j ∈ range b, ∑ k ∈ range c, ∑ l ∈ range d, f i j k l =
    ∑ k ∈ range c, ∑ l ∈ range d, ∑ i ∈ range a, ∑ j ∈ range b, f i j k l := by
  rw [sum_congr rfl fun i _ => sum_comm, sum_comm]
  refine sum_congr rfl fun k _ => ?_
  rw [sum_congr rfl fun i _ => sum_comm, sum_comm]

/-- The Bezier net on a span is the surface. -/
theorem net_surface (hx : Dir tx nx p ux lx) (hy : Dir ty ny q uy ly) (c : Nat → Nat → ℝ) (u v : ℝ) (ix iy : Nat) (hix : ix + 1 < ux.length)
    (hiy : iy + 1 < uy.length) (hu0 : tx (lx ix) ≤ u) (hu1 : u < tx (lx ix + 1) ∨ (u = tx (lx ix + 1) ∧ ix + 2 = ux.length))
    (hv0 : ty (ly iy) ≤ v) (hv1 : v < ty (ly iy + 1) ∨ (v = ty (ly iy + 1) ∧ iy + 2 = uy.length)) :
    tensorBezier (p + 1) (q + 1) (fun i j => net tx nx p lx ty ny q ly c ((p + 1) * ix + i) ((q + 1) * iy + j))
      ((u - tx (lx ix)) / (tx (lx ix + 1) - tx (lx ix))) ((v - ty (ly iy)) / (ty (ly iy + 1) - ty (ly iy))) = tensorSpline tx nx p ty ny q c u v := by
  set s := (u - tx (lx ix)) / (tx (lx ix + 1) - tx (lx ix)) with hs
  set r := (v - ty (ly iy)) / (ty (ly iy + 1) - ty (ly iy)) with hr
  have ex : ∀ i ∈ range (p + 1), ∀ a, ext tx lx p ((p + 1) * ix + i) a = bezier tx (lx ix) p a i := by
    intro i hi a
    obtain ⟨d1, d2⟩ := divmod_pair (m := p + 1) (a := ix) (b := i) (mem_range.1 hi)
    unfold Spl.ext
    rw [Nat.mul_comm (p + 1) ix, d1, d2]
  have ey : ∀ i ∈ range (q + 1), ∀ a, ext ty ly q ((q + 1) * iy + i) a = bezier ty (ly iy) q a i := by
    intro i hi a
    obtain ⟨d1, d2⟩ := divmod_pair (m := q + 1) (a := iy) (b := i) (mem_range.1 hi)
    unfold Spl.ext
    rw [Nat.mul_comm (q + 1) iy, d1, d2]
  unfold tensorBezier tensorSpline net
  simp only [Nat.add_sub_cancel]
  have e : ∀ a ∈ range nx, ∀ b ∈ range ny, bspline tx nx u p a * bspline ty ny v q b * c b a =
      ∑ i ∈ range (p + 1), ∑ j ∈ range (q + 1), ext tx lx p ((p + 1) * ix + i) a * ext ty ly q ((q + 1) * iy + j) b * c b a * (bern p i s * bern q j r) := by
    intro a _ b _
    rw [hx.bspline_eq hix u hu0 hu1, hy.bspline_eq hiy v hv0 hv1, ← hs, ← hr, sum_mul_sum, sum_mul]
    refine sum_congr rfl fun i hi => ?_
    rw [sum_mul]
    refine sum_congr rfl fun j hj => ?_
    rw [ex i hi, ey j hj]; ring
  rw [sum_congr rfl fun a ha => sum_congr rfl fun b hb => e a ha b hb]
  simp only [sum_mul]
  exact (sum4_swap _ _ _ _ _).symm

/-- Perturbation of the control net. -/
theorem tensor_err (P Q : Nat → Nat → ℝ) (eps s r : ℝ) (hs0 : 0 ≤ s) (hs1 : s ≤ 1) (hr0 : 0 ≤ r) (hr1 : r ≤ 1)
    (h : ∀ i < p + 1, ∀ j < q + 1, |P i j - Q i j| ≤ eps) :
    |tensorBezier (p + 1) (q + 1) P s r - tensorBezier (p + 1) (q + 1) Q s r| ≤ eps := by
  unfold tensorBezier
  simp only [Nat.add_sub_cancel]
  rw [← sum_sub_distrib]
  have e : ∑ i ∈ range (p + 1), ∑ j ∈ range (q + 1), eps * (bern p i s * bern q j r) = eps := by
    have := sum_tensor_bern (p + 1) (q + 1) (by omega) (by omega) s r
    simp only [Nat.add_sub_cancel] at this
    rw [sum_congr rfl fun i _ => (mul_sum _ _ _).symm, ← mul_sum, this, mul_one]
  conv_rhs => rw [← e]
  refine (abs_sum_le_sum_abs _ _).trans (sum_le_sum fun i hi => ?_)
  rw [← sum_sub_distrib]
  refine (abs_sum_le_sum_abs _ _).trans (sum_le_sum fun j hj => ?_)
  rw [← sub_mul, abs_mul, abs_of_nonneg (mul_nonneg (bern_nonneg p i s hs0 hs1) (bern_nonneg q j r hr0 hr1))]
  exact mul_le_mul_of_nonneg_right (h i (mem_range.1 hi) j (mem_range.1 hj))
    (mul_nonneg (bern_nonneg p i s hs0 hs1) (bern_nonneg q j r hr0 hr1))

theorem surface_aux (junk : Nat → ℝ) (inv) (hinv : InvertsMatrices inv) (dx : Dir tx nx p ux lx) (dy : Dir ty ny q uy ly) (hp : p ≤ 20)
    (hq : q ≤ 20) (xyzw : Nat → Mat ℝ) (hr : ∀ k < 4, (xyzw k).rows = ny) (hc : ∀ k < 4, (xyzw k).cols = nx) :
    ∃ pa P, initPatchGeneral junk inv xyzw ((List.range (nx + p + 1)).map tx) ((List.range (ny + q + 1)).map ty) = some pa ∧ Represents pa P ∧
      pa.ux = ux ∧ pa.uy = uy ∧
      ∀ junk' u v, 0 ≤ u → u ≤ 1 → 0 ≤ v → v ≤ 1 → ∃ h : Fin 4 → ℝ, eval junk' pa (u, v) = some (fun k => h k.castSucc / h 3) ∧
        (∀ k, |h k - tensorSpline tx nx p ty ny q (xyzw k).entry u v| ≤
          1 / 10 ^ 15 * ∑ i ∈ range nx, ∑ j ∈ range ny, |(xyzw k).entry j i|) ∧
        (NoTiny tx nx p ux lx ty ny q uy ly → ∀ k, h k = tensorSpline tx nx p ty ny q (xyzw k).entry u v) := by
  obtain ⟨pa, P, e1, e2, e3, e4, e5, e6, e7, e8⟩ := initPatch_net junk inv hinv dx dy hp hq xyzw hr hc
  refine ⟨pa, P, e1, e6, e4, e5, fun junk' u v hu0 hu1 hv0 hv1 => ?_⟩
  subst e4; subst e5
  obtain ⟨ix, a, b, ha, hb, hau, hub, hX⟩ := exists_span pa.ux e6.hux u hu0 hu1
  obtain ⟨iy, c, d, hcc, hd, hcv, hvd, hY⟩ := exists_span pa.uy e6.huy v hv0 hv1
  have hix : ix + 1 < pa.ux.length := (List.getElem?_eq_some_iff.1 hb).1
  have hiy : iy + 1 < pa.uy.length := (List.getElem?_eq_some_iff.1 hd).1
  have hev := eval_span junk' pa P e6 u v a b c d ix iy ha hb hcc hd hau hX hcv hY
  obtain ⟨-, -, x1, x2⟩ := dx.span ix hix
  obtain ⟨-, -, y1, y2⟩ := dy.span iy hiy
  have ltx := dx.lt hix
  have lty := dy.lt hiy
  rw [ha, Option.some.injEq] at x1
  rw [hb, Option.some.injEq] at x2
  rw [hcc, Option.some.injEq] at y1
  rw [hd, Option.some.injEq] at y2
  subst x1; subst x2; subst y1; subst y2
  rw [e2, e3] at hev
  have idx : ∀ (m n w i : Nat), w + 1 < m → i < n + 1 → (n + 1) * w + i < (m - 1) * (n + 1) := fun m n w i h1 h2 => by
    calc (n + 1) * w + i < (n + 1) * (w + 1) := by rw [Nat.mul_succ]; omega
      _ ≤ (n + 1) * (m - 1) := Nat.mul_le_mul_left _ (by omega)
      _ = _ := Nat.mul_comm _ _
  refine ⟨fun k => tensorBezier (p + 1) (q + 1) (fun i j => P ((p + 1) * ix + i) ((q + 1) * iy + j) k) ((u - tx (lx ix)) / (tx (lx ix + 1) - tx (lx ix)))
    ((v - ty (ly iy)) / (ty (ly iy + 1) - ty (ly iy))), hev, fun k => ?_, fun hnt k => ?_⟩
  · rw [← net_surface dx dy (xyzw k).entry u v ix iy hix hiy hau hX hcv hY]
    refine tensor_err _ _ _ _ _ (div_nonneg (by linarith) (by linarith)) ((div_le_one (by linarith)).2 (by linarith))
      (div_nonneg (by linarith) (by linarith)) ((div_le_one (by linarith)).2 (by linarith)) fun i hi j hj => ?_
    refine (e7 _ (idx _ _ _ _ hix hi) _ (idx _ _ _ _ hiy hj) k).trans (le_of_eq ?_)
    norm_num
  · rw [← net_surface dx dy (xyzw k).entry u v ix iy hix hiy hau hX hcv hY]
    unfold tensorBezier
    refine sum_congr rfl fun i hi => sum_congr rfl fun j hj => ?_
    beta_reduce
    rw [e8 hnt _ (idx _ _ _ _ hix (mem_range.1 hi)) _ (idx _ _ _ _ hiy (mem_range.1 hj)) k]

end

/-- C67: the patch constructed from a control net and two open knot vectors (any interior knots and multiplicities) evaluates the NURBS surface: in
every point of the unit square its homogeneous coordinates are those of the surface, up to the coefficients below `1e-15` that are dropped. -/
theorem C67_surface (junk : Nat → ℝ) (inv) (hinv : InvertsMatrices inv) (tx ty : Nat → ℝ) (nx ny p q : Nat) (hx : OpenKnots tx nx p)
    (hy : OpenKnots ty ny q) (hp : p ≤ 20) (hq : q ≤ 20) (xyzw : Nat → Mat ℝ) (hr : ∀ k < 4, (xyzw k).rows = ny) (hc : ∀ k < 4, (xyzw k).cols = nx) :
    ∃ pa, initPatchGeneral junk inv xyzw ((List.range (nx + p + 1)).map tx) ((List.range (ny + q + 1)).map ty) = some pa ∧
      ∀ junk' u v, 0 ≤ u → u ≤ 1 → 0 ≤ v → v ≤ 1 → ∃ h : Fin 4 → ℝ, eval junk' pa (u, v) = some (fun k => h k.castSucc / h 3) ∧
        ∀ k, |h k - tensorSpline tx nx p ty ny q (xyzw k).entry u v| ≤
          1 / 10 ^ 15 * ∑ i ∈ range nx, ∑ j ∈ range ny, |(xyzw k).entry j i| := by
  obtain ⟨ux, lx, dx⟩ := exists_dir hx
  obtain ⟨uy, ly, dy⟩ := exists_dir hy
  obtain ⟨pa, P, e1, -, -, -, e2⟩ := surface_aux junk inv hinv dx dy hp hq xyzw hr hc
  refine ⟨pa, e1, fun junk' u v a b c d => ?_⟩
  obtain ⟨h, h1, h2, -⟩ := e2 junk' u v a b c d
  exact ⟨h, h1, h2⟩

/-- The knots lie on a uniform grid of width `h` without gaps (multiplicities are arbitrary). -/
def OnGrid (t : Nat → ℝ) (h : ℝ) : Prop :=
  ∃ τ : Nat → Nat, (∀ i, t i = τ i * h) ∧ ∀ i, τ (i + 1) ≤ τ i + 1

theorem grid_gap {t : Nat → ℝ} {n p : Nat} {u : List ℝ} {l : Nat → Nat} (d : Dir t n p u l) {h : ℝ} (hh : 0 < h) (hg : OnGrid t h) (hp : p ≤ 10)
    (I : Nat) (hI : I < (u.length - 1) * (p + 1)) (i : Nat) : ext t l p I i = 0 ∨ 1 / 3628800 ≤ ext t l p I i := by
  obtain ⟨τ, h1, h2⟩ := hg
  have mono : Monotone τ := by
    intro a b hab
    have := d.knots.mono hab
    rw [h1, h1] at this
    exact_mod_cast le_of_mul_le_mul_right this hh
  have hlt := d.lt (d.span_lt hI)
  rw [h1, h1] at hlt
  have hlt' : τ (l (I / (p + 1))) < τ (l (I / (p + 1)) + 1) := by exact_mod_cast lt_of_mul_lt_mul_right hlt hh.le
  have hr : I % (p + 1) ≤ p := by have := Nat.mod_lt I (show p + 1 > 0 by omega); omega
  have := bezier_gap t τ h hh h1 mono h2 (l (I / (p + 1))) hlt' p i (I % (p + 1)) hr
  refine this.imp id fun h => le_trans ?_ h
  have hf : p.factorial ≤ 3628800 := (Nat.factorial_le hp).trans (by decide)
  have hf0 := Nat.factorial_pos p
  have hf' : (p.factorial : ℝ) ≤ 3628800 := by exact_mod_cast hf
  exact one_div_le_one_div_of_le (by exact_mod_cast hf0) hf'

theorem noTiny_grid {tx ty : Nat → ℝ} {nx ny p q : Nat} {ux uy : List ℝ} {lx ly : Nat → Nat} (dx : Dir tx nx p ux lx) (dy : Dir ty ny q uy ly)
    {hX hY : ℝ} (h1 : 0 < hX) (h2 : 0 < hY) (gx : OnGrid tx hX) (gy : OnGrid ty hY) (hp : p ≤ 10) (hq : q ≤ 10) :
    NoTiny tx nx p ux lx ty ny q uy ly := by
  intro I hI J hJ i _ j _
  have := gap_mul (by norm_num) (by norm_num) (grid_gap dx h1 gx hp I hI i) (grid_gap dy h2 gy hq J hJ j)
  unfold prune
  rcases this with h | h
  · rw [h]; simp
  · rw [if_pos]
    rw [abs_of_pos (lt_of_lt_of_le (by norm_num) h)]
    exact lt_of_lt_of_le (by norm_num) h

/-- C67: for degrees up to 10 and knots on a uniform grid (any multiplicities) nothing is dropped and the patch is exactly the NURBS surface. -/
theorem C67_exact (junk : Nat → ℝ) (inv) (hinv : InvertsMatrices inv) (tx ty : Nat → ℝ) (nx ny p q : Nat) (hx : OpenKnots tx nx p)
    (hy : OpenKnots ty ny q) (hX hY : ℝ) (h1 : 0 < hX) (h2 : 0 < hY) (gx : OnGrid tx hX) (gy : OnGrid ty hY) (hp : p ≤ 10) (hq : q ≤ 10)
    (xyzw : Nat → Mat ℝ) (hr : ∀ k < 4, (xyzw k).rows = ny) (hc : ∀ k < 4, (xyzw k).cols = nx) :
    ∃ pa, initPatchGeneral junk inv xyzw ((List.range (nx + p + 1)).map tx) ((List.range (ny + q + 1)).map ty) = some pa ∧
      ∀ junk' u v, 0 ≤ u → u ≤ 1 → 0 ≤ v → v ≤ 1 → eval junk' pa (u, v) = some fun k : Fin 3 =>
        tensorSpline tx nx p ty ny q (xyzw k).entry u v / tensorSpline tx nx p ty ny q (xyzw 3).entry u v := by
  obtain ⟨ux, lx, dx⟩ := exists_dir hx
  obtain ⟨uy, ly, dy⟩ := exists_dir hy
  obtain ⟨pa, P, e1, -, -, -, e2⟩ := surface_aux junk inv hinv dx dy (by omega) (by omega) xyzw hr hc
  refine ⟨pa, e1, fun junk' u v a b c d => ?_⟩
  obtain ⟨h, h1', -, h2'⟩ := e2 junk' u v a b c d
  have := h2' (noTiny_grid dx dy h1 h2 gx gy hp hq)
  rw [h1']
  congr 1
  funext k
  rw [this, this]
  rfl

theorem bounds {t : Nat → ℝ} {n p i : Nat} (h : OpenKnots t n p) (hi : i < n + p) : 0 ≤ t i ∧ t (i + 1) ≤ 1 :=
  ⟨by rw [← h.first]; exact h.mono (by omega), by rw [← h.final]; exact h.mono (by omega)⟩

theorem span_of {t : Nat → ℝ} {n p : Nat} {u : List ℝ} {l : Nat → Nat} (d : Dir t n p u l) {i : Nat} (hi : i < n + p) (hlt : t i < t (i + 1)) :
    ∃ ix, ix + 1 < u.length ∧ u[ix]? = some (t i) ∧ u[ix + 1]? = some (t (i + 1)) ∧ l ix = i := by
  have hb := bounds d.knots hi
  obtain ⟨ix, a, b, ha, hb', hau, hub, hX⟩ := exists_span u d.good ((t i + t (i + 1)) / 2) (by linarith) (by linarith)
  have hix : ix + 1 < u.length := (List.getElem?_eq_some_iff.1 hb').1
  obtain ⟨-, -, e1, e2⟩ := d.span ix hix
  rw [ha, Option.some.injEq] at e1
  rw [hb', Option.some.injEq] at e2
  subst e1; subst e2
  have hl : l ix = i := by
    rcases Nat.lt_trichotomy (l ix) i with h | h | h
    · have := d.knots.mono (show l ix + 1 ≤ i by omega); linarith
    · exact h
    · have := d.knots.mono (show i + 1 ≤ l ix by omega); linarith
  rw [hl] at ha hb'
  exact ⟨ix, hix, ha, hb', hl⟩

/-- C67: shredding that patch gives one single-element patch for every pair of nonempty knot spans, and it evaluates the surface on that rectangle. -/
theorem C67_chips (junk : Nat → ℝ) (inv) (hinv : InvertsMatrices inv) (tx ty : Nat → ℝ) (nx ny p q : Nat) (hx : OpenKnots tx nx p)
    (hy : OpenKnots ty ny q) (hX hY : ℝ) (h1 : 0 < hX) (h2 : 0 < hY) (gx : OnGrid tx hX) (gy : OnGrid ty hY) (hp : p ≤ 10) (hq : q ≤ 10)
    (xyzw : Nat → Mat ℝ) (hr : ∀ k < 4, (xyzw k).rows = ny) (hc : ∀ k < 4, (xyzw k).cols = nx) :
    ∃ pa chips, initPatchGeneral junk inv xyzw ((List.range (nx + p + 1)).map tx) ((List.range (ny + q + 1)).map ty) = some pa ∧
      patchShredder pa = some chips ∧
      ∀ i < nx + p, tx i < tx (i + 1) → ∀ j < ny + q, ty j < ty (j + 1) → ∃ c ∈ chips, c.ux = [0, 1] ∧ c.uy = [0, 1] ∧
        ∀ junk' s t, 0 ≤ s → s < 1 → 0 ≤ t → t < 1 → eval junk' c (s, t) = some fun k : Fin 3 =>
          tensorSpline tx nx p ty ny q (xyzw k).entry (tx i + (tx (i + 1) - tx i) * s) (ty j + (ty (j + 1) - ty j) * t) /
            tensorSpline tx nx p ty ny q (xyzw 3).entry (tx i + (tx (i + 1) - tx i) * s) (ty j + (ty (j + 1) - ty j) * t) := by
  obtain ⟨ux, lx, dx⟩ := exists_dir hx
  obtain ⟨uy, ly, dy⟩ := exists_dir hy
  obtain ⟨pa, P, e1, hrep, eux, euy, e2⟩ := surface_aux junk inv hinv dx dy (by omega) (by omega) xyzw hr hc
  obtain ⟨chips, e3, e4, e5⟩ := C14_shredder pa P hrep
  refine ⟨pa, chips, e1, e3, fun i hi hxi j hj hyj => ?_⟩
  subst eux; subst euy
  obtain ⟨ix, a1, a2, a3, a4⟩ := span_of dx hi hxi
  obtain ⟨iy, b1, b2, b3, b4⟩ := span_of dy hj hyj
  obtain ⟨c, c1, c2, c3, -⟩ := e5 ix iy a1 b1
  refine ⟨c, List.mem_of_getElem? c1, c2, c3, fun junk' s t s0 s1 t0 t1 => ?_⟩
  obtain ⟨c', d1, d2⟩ := C14_eval junk' junk' pa P hrep chips e3 ix iy _ _ _ _ a2 a3 b2 b3 s t s0 t0 (Or.inl s1) (Or.inl t1)
  rw [c1, Option.some.injEq] at d1
  subst d1
  have bx := bounds hx hi
  have byy := bounds hy hj
  obtain ⟨h, h1', -, h2'⟩ := e2 junk' (tx i + (tx (i + 1) - tx i) * s) (ty j + (ty (j + 1) - ty j) * t) (by nlinarith) (by nlinarith) (by nlinarith)
    (by nlinarith)
  have := h2' (noTiny_grid dx dy h1 h2 gx gy hp hq)
  rw [d2, h1']
  congr 1
  funext k
  rw [this, this]
  rfl

/-- C67: on input in Bezier form the general construction is the one of C10. -/
theorem C67_bezier (junk : Nat → ℝ) (inv) (xyzw : Nat → Mat ℝ) (xKnots yKnots : List ℝ) (pa : Patch ℝ)
    (h : initPatch junk xyzw xKnots yKnots = some pa) : initPatchGeneral junk inv xyzw xKnots yKnots = some pa := by
  unfold initPatch at h
  unfold initPatchGeneral
  simp only [Option.bind_eq_bind] at h ⊢
  cases hx : extractUniqueKnotVector xKnots with
  | none => rw [hx] at h; simp at h
  | some ux =>
    cases hy : extractUniqueKnotVector yKnots with
    | none => rw [hx, hy] at h; simp at h
    | some uy =>
      rw [hx, hy] at h
      simp only [Option.bind_some] at h ⊢
      split_ifs at h ⊢
      exact h

/-! ## Examples -/

/-- The knot vector 0, 0, 0, 1/2, 1, 1, 1 of quadratic splines. -/
noncomputable def exKnots (i : Nat) : ℝ := if i ≤ 2 then 0 else if i = 3 then 1 / 2 else 1

theorem exKnots_open : OpenKnots exKnots 4 2 where
  mono := by
    intro a b hab
    unfold exKnots
    split_ifs <;> first | omega | norm_num
  dim := by norm_num
  first := by simp [exKnots]
  clamped := by simp [exKnots]
  start := by norm_num [exKnots]
  inner := by norm_num [exKnots]
  last := by norm_num [exKnots]
  final := by norm_num [exKnots]
  gap := by
    intro i hi
    have : i = 0 ∨ i = 1 ∨ i = 2 ∨ i = 3 ∨ i = 4 ∨ i = 5 := by omega
    rcases this with rfl | rfl | rfl | rfl | rfl | rfl <;> norm_num [exKnots]

theorem exKnots_grid : OnGrid exKnots (1 / 2) := by
  refine ⟨fun i => if i ≤ 2 then 0 else if i = 3 then 1 else 2, fun i => ?_, fun i => ?_⟩
  · unfold exKnots; dsimp only; by_cases h : i ≤ 2 <;> by_cases h3 : i = 3 <;> simp [h, h3]
  · dsimp only; split_ifs <;> omega

/-- An inversion that meets the specification. -/
noncomputable def inverter (n : Nat) (A : Nat → Nat → ℝ) (r c : Nat) : ℝ :=
  if h : r < n ∧ c < n then (Matrix.of fun i j : Fin n => A i j)⁻¹ ⟨r, h.1⟩ ⟨c, h.2⟩ else 0

theorem inverter_inverts : InvertsMatrices inverter := by
  intro n A hk r hr c hc
  set B : Matrix (Fin n) (Fin n) ℝ := Matrix.of fun i j : Fin n => A i j with hB
  have hdet : IsUnit B.det := by
    rw [isUnit_iff_ne_zero]
    intro h0
    obtain ⟨v, v0, hv⟩ := Matrix.exists_mulVec_eq_zero_iff.2 h0
    apply v0
    have := hk (fun i => if h : i < n then v ⟨i, h⟩ else 0) (fun r hr => by
      have := congrFun hv ⟨r, hr⟩
      rw [Finset.sum_range]
      simpa [Matrix.mulVec, dotProduct, hB] using this)
    funext i
    have := this i.1 i.2
    simpa using this
  have := congrFun (congrFun (Matrix.nonsing_inv_mul B hdet) ⟨r, hr⟩) ⟨c, hc⟩
  rw [Matrix.mul_apply, Matrix.one_apply] at this
  rw [Finset.sum_range]
  simp only [Fin.mk.injEq] at this
  rw [← this]
  refine sum_congr rfl fun k _ => ?_
  unfold inverter
  rw [dif_pos ⟨hr, k.2⟩]
  rfl

/-- A net of 4 × 4 control points on a graph, all with weight 1: the patch with 2 × 2 spans has the surface. -/
example (junk : Nat → ℝ) : ∃ pa, initPatchGeneral junk inverter
      (fun k => ⟨4, 4, fun j i => if k = 0 then i else if k = 1 then j else if k = 2 then i * j else 1⟩)
      ((List.range 7).map exKnots) ((List.range 7).map exKnots) = some pa ∧
    ∀ u v, 0 ≤ u → u ≤ 1 → 0 ≤ v → v ≤ 1 → ∃ x, eval junk pa (u, v) = some x ∧ x 0 =
      tensorSpline exKnots 4 2 exKnots 4 2 (fun _ i => i) u v / tensorSpline exKnots 4 2 exKnots 4 2 (fun _ _ => 1) u v := by
  obtain ⟨pa, h1, h2⟩ := C67_exact junk inverter inverter_inverts exKnots exKnots 4 4 2 2 exKnots_open exKnots_open (1 / 2) (1 / 2) (by norm_num)
    (by norm_num) exKnots_grid exKnots_grid (by norm_num) (by norm_num)
    (fun k => ⟨4, 4, fun j i => if k = 0 then i else if k = 1 then j else if k = 2 then i * j else 1⟩) (fun _ _ => rfl) (fun _ _ => rfl)
  refine ⟨pa, h1, fun u v a b c d => ⟨_, h2 junk u v a b c d, ?_⟩⟩
  simp

end Bembel.Props
