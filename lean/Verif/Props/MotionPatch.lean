import Verif.Props.Patch
/-! # C84: affine images of patches -/

namespace Bembel.Props
open Geo Finset

/-- C84: a patch whose control points are mapped by an affine map `x ↦ A x + b` is the image of the patch: points are mapped by the affine
map, tangents by its linear part.  (Control points are stored in homogeneous coordinates: position times weight, weight.) -/
theorem C84_patch {K : Type} [Field K] [LinearOrder K] [IsStrictOrderedRing K] (junk : Nat → K) (A : Fin 3 → Fin 3 → K) (b : Fin 3 → K)
    (p p' : Geo.Patch K) (P P' : Nat → Nat → Fin 4 → K) (h : Represents p P) (h' : Represents p' P') (hx : p'.ux = p.ux) (hy : p'.uy = p.uy)
    (hpx : p'.px = p.px) (hpy : p'.py = p.py)
    (hP : ∀ i j, (∀ k : Fin 3, P' i j k.castSucc = ∑ l : Fin 3, A k l * P i j l.castSucc + b k * P i j 3) ∧ P' i j 3 = P i j 3)
    (hw : ∀ i j, i < p.px * (p.ux.length - 1) → j < p.py * (p.uy.length - 1) → 0 < P i j 3)
    (u v : K) (hu0 : 0 ≤ u) (hu1 : u ≤ 1) (hv0 : 0 ≤ v) (hv1 : v ≤ 1) :
    ∃ (x : Fin 3 → K) (J : Fin 3 → Fin 2 → K), Geo.eval junk p (u, v) = some x ∧ Geo.evalJacobian junk p (u, v) = some J ∧
      Geo.eval junk p' (u, v) = some (fun k => ∑ l, A k l * x l + b k) ∧
      Geo.evalJacobian junk p' (u, v) = some (fun k c => ∑ l, A k l * J l c) := by
  obtain ⟨ix, a, e, ha, hb, hau, hub, hx1⟩ := exists_span p.ux h.hux u hu0 hu1
  obtain ⟨iy, c, d, hc, hd, hcv, hvd, hy1⟩ := exists_span p.uy h.huy v hv0 hv1
  have hix : ix + 1 < p.ux.length := (List.getElem?_eq_some_iff.1 hb).1
  have hiy : iy + 1 < p.uy.length := (List.getElem?_eq_some_iff.1 hd).1
  have hab : 0 < e - a := by have := h.hux.lt (Nat.lt_succ_self ix) ha hb; have := tol_pos (K := K); linarith
  have hcd : 0 < d - c := by have := h.huy.lt (Nat.lt_succ_self iy) hc hd; have := tol_pos (K := K); linarith
  have hI : ∀ i, i < p.px → p.px * ix + i < p.px * (p.ux.length - 1) := fun i hi => by
    calc p.px * ix + i < p.px * ix + p.px := by omega
      _ = p.px * (ix + 1) := by ring
      _ ≤ _ := Nat.mul_le_mul_left _ (by omega)
  have hJ : ∀ j, j < p.py → p.py * iy + j < p.py * (p.uy.length - 1) := fun j hj => by
    calc p.py * iy + j < p.py * iy + p.py := by omega
      _ = p.py * (iy + 1) := by ring
      _ ≤ _ := Nat.mul_le_mul_left _ (by omega)
  have haff : ∀ (F : Nat → Nat → K) (k : Fin 3), ∑ i ∈ range p.px, ∑ j ∈ range p.py,
      Spec.subNet p.px p.py P' ix iy i j k.castSucc * F i j =
      ∑ l : Fin 3, A k l * (∑ i ∈ range p.px, ∑ j ∈ range p.py, Spec.subNet p.px p.py P ix iy i j l.castSucc * F i j) +
        b k * ∑ i ∈ range p.px, ∑ j ∈ range p.py, Spec.subNet p.px p.py P ix iy i j 3 * F i j := by
    intro F k
    simp only [Fin.sum_univ_three, Finset.mul_sum, ← Finset.sum_add_distrib]
    refine Finset.sum_congr rfl fun i _ => Finset.sum_congr rfl fun j _ => ?_
    simp only [Spec.subNet, (hP _ _).1 k, Fin.sum_univ_three]
    ring
  have hwt : ∀ (F : Nat → Nat → K), ∑ i ∈ range p.px, ∑ j ∈ range p.py,
      Spec.subNet p.px p.py P' ix iy i j 3 * F i j =
      ∑ i ∈ range p.px, ∑ j ∈ range p.py, Spec.subNet p.px p.py P ix iy i j 3 * F i j := by
    intro F
    refine Finset.sum_congr rfl fun i _ => Finset.sum_congr rfl fun j _ => ?_
    simp only [Spec.subNet, (hP _ _).2]
  have ev := eval_span junk p P h u v a e c d ix iy ha hb hc hd hau hx1 hcv hy1
  obtain ⟨T, Tx, Ty, hT, hTx, hTy, hJac⟩ := jacobian_span junk p P h u v a e c d ix iy ha hb hc hd hau hx1 hcv hy1
  have ev' := eval_span junk p' P' h' u v a e c d ix iy (hx ▸ ha) (hx ▸ hb) (hy ▸ hc) (hy ▸ hd) hau (hx ▸ hx1) hcv (hy ▸ hy1)
  obtain ⟨T', Tx', Ty', hT', hTx', hTy', hJac'⟩ :=
    jacobian_span junk p' P' h' u v a e c d ix iy (hx ▸ ha) (hx ▸ hb) (hy ▸ hc) (hy ▸ hd) hau (hx ▸ hx1) hcv (hy ▸ hy1)
  have h3 : T 3 ≠ 0 := by
    rw [hT 3]
    refine (denominator_pos p.px p.py h.px1 h.py1 _ _ _ (div_nonneg (by linarith) hab.le)
      ((div_le_one hab).2 (by linarith)) (div_nonneg (by linarith) hcd.le)
      ((div_le_one hcd).2 (by linarith)) ?_).ne'
    intro i j hi hj; exact hw _ _ (hI i hi) (hJ j hj)
  simp only [hpx, hpy] at ev' hT' hTx' hTy'
  have a1 : ∀ k : Fin 3, T' k.castSucc = ∑ l, A k l * T l.castSucc + b k * T 3 := fun k => by
    rw [hT']; simp only [hT]; exact haff _ k
  have a2 : ∀ k : Fin 3, Tx' k.castSucc = ∑ l, A k l * Tx l.castSucc + b k * Tx 3 := fun k => by
    rw [hTx']; simp only [hTx]; exact haff (fun _ _ => _) k
  have a3 : ∀ k : Fin 3, Ty' k.castSucc = ∑ l, A k l * Ty l.castSucc + b k * Ty 3 := fun k => by
    rw [hTy']; simp only [hTy]; exact haff (fun _ _ => _) k
  have b1 : T' 3 = T 3 := by rw [hT', hT]; exact hwt _
  have b2 : Tx' 3 = Tx 3 := by rw [hTx', hTx]; exact hwt _
  have b3 : Ty' 3 = Ty 3 := by rw [hTy', hTy]; exact hwt _
  have hr : ∀ k, Spec.ratBezier p.px p.py (Spec.subNet p.px p.py P ix iy) ((u - a) / (e - a)) ((v - c) / (d - c)) k =
      T k.castSucc / T 3 := fun k => by rw [hT, hT]; rfl
  have hr' : ∀ k, Spec.ratBezier p.px p.py (Spec.subNet p.px p.py P' ix iy) ((u - a) / (e - a)) ((v - c) / (d - c)) k =
      T' k.castSucc / T' 3 := fun k => by rw [hT', hT']; rfl
  refine ⟨_, _, ev, hJac, ?_, ?_⟩
  · rw [ev']
    congr 1
    funext k
    rw [hr', a1, b1]
    simp only [hr, Fin.sum_univ_three]
    field_simp
  · rw [hJac']
    congr 1
    funext k s
    rw [a1, a2, a3, b1, b2, b3]
    by_cases hs : s = 0
    · simp only [hs, if_true, Fin.sum_univ_three]; field_simp; ring
    · simp only [hs, if_false, Fin.sum_univ_three]; field_simp; ring

/-- The sample patch after a quarter turn about the third axis and a translation by `(1, 2, 3)`. -/
def samplePatchTurned : Patch ℚ :=
  { samplePatch with data := [1, 2, 3, 1,  0, 2, 3, 1,  1, 3, 3, 1,  0, 3, 3, 1,  1, 3, 3, 1,  0, 3, 3, 1,  2, 8, 8, 2,  0, 8, 8, 2] }

/-- The hypotheses are met. -/
example : ∃ (x : Fin 3 → ℚ) (J : Fin 3 → Fin 2 → ℚ), eval (fun _ => 0) samplePatch (3 / 4, 1 / 3) = some x ∧
    evalJacobian (fun _ => 0) samplePatch (3 / 4, 1 / 3) = some J ∧
    eval (fun _ => 0) samplePatchTurned (3 / 4, 1 / 3) = some (fun k => ∑ l, !![0, -1, 0; 1, 0, 0; 0, 0, 1] k l * x l + ![1, 2, 3] k) ∧
    evalJacobian (fun _ => 0) samplePatchTurned (3 / 4, 1 / 3) = some (fun k c => ∑ l, !![0, -1, 0; 1, 0, 0; 0, 0, 1] k l * J l c) := by
  refine C84_patch (fun _ => 0) (!![0, -1, 0; 1, 0, 0; 0, 0, 1]) ![1, 2, 3] samplePatch samplePatchTurned _ _
    (represents_of_length samplePatch goodKnots_half goodKnots_01 (by simp [samplePatch])
      (by simp [samplePatch]) (by simp [samplePatch]) (by simp [samplePatch]) rfl)
    (represents_of_length samplePatchTurned goodKnots_half goodKnots_01 (by simp [samplePatchTurned, samplePatch])
      (by simp [samplePatchTurned, samplePatch]) (by simp [samplePatchTurned, samplePatch]) (by simp [samplePatchTurned, samplePatch]) rfl)
    rfl rfl rfl rfl ?_ ?_ _ _ (by norm_num) (by norm_num) (by norm_num) (by norm_num)
  · intro i j
    simp only [samplePatchTurned]
    generalize i * ((samplePatch.uy.length - 1) * samplePatch.py) + j = n
    by_cases hn : n < 8
    · interval_cases n <;> refine ⟨fun k => ?_, ?_⟩ <;> (try fin_cases k) <;> simp [samplePatch, Fin.sum_univ_three] <;> norm_num
    · have h1 : ∀ (L : List ℚ) (k : Fin 4), L.length = 32 → L.getD (4 * n + k) 0 = 0 := fun L k h => by
        rw [List.getD_eq_getElem?_getD, List.getElem?_eq_none (by omega)]; rfl
      have h2 : samplePatch.data.length = 32 := rfl
      refine ⟨fun k => ?_, ?_⟩
      · rw [h1 _ _ rfl, h1 _ _ h2]
        simp only [h1 _ _ h2]
        simp
      · rw [h1 _ _ rfl, h1 _ _ h2]
  · intro i j hi hj
    simp only [samplePatch, List.length_cons, List.length_nil] at hi hj
    have hi' : i < 4 := by omega
    have hj' : j < 2 := by omega
    interval_cases i <;> interval_cases j <;> simp [samplePatch]

end Bembel.Props
