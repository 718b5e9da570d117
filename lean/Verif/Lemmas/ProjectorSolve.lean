import Verif.Lemmas.ProjectorSpan
import Verif.Lemmas.H2Init
import Verif.Model.Projector
import Verif.Spec.Operators
/-!
# The interpolation problem of the projector
-/

open Finset

namespace Bembel.Projector
open Spec Spl Props Basis

theorem divmod_pair {m a b : Nat} (hb : b < m) : (a * m + b) % m = b ∧ (a * m + b) / m = a := by
  constructor
  · rw [Nat.add_comm, Nat.add_mul_mod_self_right, Nat.mod_eq_of_lt hb]
  · rw [Nat.add_comm, Nat.add_mul_div_right _ _ (by omega), Nat.div_eq_of_lt hb, Nat.zero_add]

/-- Four nested loops filling a matrix. -/
theorem fill4 (m : Nat) (g : Nat → Nat → Nat → Nat → ℝ) (A : Nat → Nat → ℝ) (iy ix jy jx : Nat) (hiy : iy < m) (hix : ix < m)
    (hjy : jy < m) (hjx : jx < m) :
    forLoop m (fun S iy => forLoop m (fun S ix => forLoop m (fun S jy => forLoop m (fun S jx =>
      upd2 S (iy * m + ix) (jy * m + jx) (g iy ix jy jx)) S) S) S) A (iy * m + ix) (jy * m + jx) = g iy ix jy jx := by
  let get : (Nat → Nat → ℝ) → Nat × Nat → ℝ := fun S p => S p.1 p.2
  let tgt : Nat × Nat → ℝ := fun p => g (p.1 / m) (p.1 % m) (p.2 / m) (p.2 % m)
  have T : ∀ iy ix jy jx, ix < m → jx < m → tgt (iy * m + ix, jy * m + jx) = g iy ix jy jx := by
    intro iy ix jy jx h1 h2
    simp only [tgt, divmod_pair h1, divmod_pair h2]
  have l1 : ∀ iy, ∀ ix < m, ∀ jy, ∀ S p,
      ((∃ jx ∈ List.range m, p = (iy * m + ix, jy * m + jx)) →
        get (forLoop m (fun S jx => upd2 S (iy * m + ix) (jy * m + jx) (g iy ix jy jx)) S) p = tgt p) ∧
      ((¬ ∃ jx ∈ List.range m, p = (iy * m + ix, jy * m + jx)) →
        get (forLoop m (fun S jx => upd2 S (iy * m + ix) (jy * m + jx) (g iy ix jy jx)) S) p = get S p) := by
    intro iy ix hix jy S p
    refine H2.foldl_write _ get (fun jx p => p = (iy * m + ix, jy * m + jx)) tgt _ ?_ S p
    intro S jx hjx p
    rw [List.mem_range] at hjx
    constructor
    · rintro rfl
      rw [T _ _ _ _ hix hjx]
      simp [get, upd2]
    · intro hne
      simp only [get, upd2]
      rw [if_neg]
      rintro ⟨h1, h2⟩
      exact hne (Prod.ext h1 h2)
  have l2 : ∀ iy, ∀ ix < m, ∀ S p,
      ((∃ jy ∈ List.range m, ∃ jx ∈ List.range m, p = (iy * m + ix, jy * m + jx)) →
        get (forLoop m (fun S jy => forLoop m (fun S jx => upd2 S (iy * m + ix) (jy * m + jx) (g iy ix jy jx)) S) S) p = tgt p) ∧
      ((¬ ∃ jy ∈ List.range m, ∃ jx ∈ List.range m, p = (iy * m + ix, jy * m + jx)) →
        get (forLoop m (fun S jy => forLoop m (fun S jx => upd2 S (iy * m + ix) (jy * m + jx) (g iy ix jy jx)) S) S) p = get S p) := by
    intro iy ix hix S p
    exact H2.foldl_write _ get (fun jy p => ∃ jx ∈ List.range m, p = (iy * m + ix, jy * m + jx)) tgt _
      (fun S jy _ p => l1 iy ix hix jy S p) S p
  have l3 : ∀ iy, ∀ S p,
      ((∃ ix ∈ List.range m, ∃ jy ∈ List.range m, ∃ jx ∈ List.range m, p = (iy * m + ix, jy * m + jx)) →
        get (forLoop m (fun S ix => forLoop m (fun S jy => forLoop m (fun S jx =>
          upd2 S (iy * m + ix) (jy * m + jx) (g iy ix jy jx)) S) S) S) p = tgt p) ∧
      ((¬ ∃ ix ∈ List.range m, ∃ jy ∈ List.range m, ∃ jx ∈ List.range m, p = (iy * m + ix, jy * m + jx)) →
        get (forLoop m (fun S ix => forLoop m (fun S jy => forLoop m (fun S jx =>
          upd2 S (iy * m + ix) (jy * m + jx) (g iy ix jy jx)) S) S) S) p = get S p) := by
    intro iy S p
    exact H2.foldl_write _ get (fun ix p => ∃ jy ∈ List.range m, ∃ jx ∈ List.range m, p = (iy * m + ix, jy * m + jx)) tgt _
      (fun S ix hix p => l2 iy ix (List.mem_range.1 hix) S p) S p
  have l4 := (H2.foldl_write _ get
    (fun iy p => ∃ ix ∈ List.range m, ∃ jy ∈ List.range m, ∃ jx ∈ List.range m, p = (iy * m + ix, jy * m + jx)) tgt _
      (fun S iy _ p => l3 iy S p) A (iy * m + ix, jy * m + jx)).1
    ⟨iy, List.mem_range.2 hiy, ix, List.mem_range.2 hix, jy, List.mem_range.2 hjy, jx, List.mem_range.2 hjx, rfl⟩
  rw [T _ _ _ _ hix hjx] at l4
  exact l4

/-- Interpolation point `i`. -/
noncomputable def node (p i : Nat) : ℝ := ((i : ℝ) + 1) * (1 / ((p + 1 : Nat) + 1 : ℝ))

theorem node_mem (p i : Nat) (hi : i ≤ p) : 0 < node p i ∧ node p i < 1 := by
  have h : (0 : ℝ) < ((p + 1 : Nat) : ℝ) + 1 := by positivity
  refine ⟨by unfold node; positivity, ?_⟩
  unfold node
  rw [mul_one_div, div_lt_one h]
  have : (i : ℝ) ≤ p := by exact_mod_cast hi
  push_cast; linarith

theorem node_inj (p i j : Nat) (h : node p i = node p j) : i = j := by
  have hp : (1 / (((p + 1 : Nat) : ℝ) + 1)) ≠ 0 := by positivity
  unfold node at h
  have := mul_right_cancel₀ hp h
  exact_mod_cast (by linarith : (i : ℝ) = j)

theorem mask_eq (p : Nat) : (makeInterpolationMask (p + 1) : List ℝ) = (List.range (p + 1)).map (node p) := by
  unfold makeInterpolationMask node
  rfl

theorem mask_getD (p i : Nat) (hi : i ≤ p) : (makeInterpolationMask (p + 1) : List ℝ).getD i 0 = node p i := by
  rw [mask_eq, List.getD_eq_getElem?_getD, List.getElem?_map, List.getElem?_range (by omega)]; rfl

theorem system_apply (junk : Nat → ℝ) (junkM : Nat → Nat → ℝ) (p : Nat) (hp : p ≤ 20) (iy ix jy jx : Nat) (hiy : iy ≤ p) (hix : ix ≤ p)
    (hjy : jy ≤ p) (hjx : jx ≤ p) :
    system junk junkM (p + 1) (makeInterpolationMask (p + 1)) (iy * (p + 1) + ix) (jy * (p + 1) + jx) =
      bern p jx (node p ix) * bern p jy (node p iy) := by
  unfold system
  have hl : (makeInterpolationMask (p + 1) : List ℝ).length = p + 1 := by simp [makeInterpolationMask]
  rw [hl]
  rw [fill4 (p + 1) (fun iy ix jy jx => handlerEvalBasis (((p + 1 : Nat) : Int) - 1) junk ((makeInterpolationMask (p + 1)).getD ix 0) jx *
    handlerEvalBasis (((p + 1 : Nat) : Int) - 1) junk ((makeInterpolationMask (p + 1)).getD iy 0) jy) _ _ _ _ _
    (by omega) (by omega) (by omega) (by omega)]
  rw [handlerBasis_eq (p + 1) (by omega) (by omega) junk _ jx (by omega), handlerBasis_eq (p + 1) (by omega) (by omega) junk _ jy (by omega),
    mask_getD p ix hix, mask_getD p iy hiy]
  rfl

/-- A sum over pairs of indices. -/
theorem sum_pairs (m : Nat) (f : Nat → ℝ) : ∑ c ∈ range (m * m), f c = ∑ y ∈ range m, ∑ x ∈ range m, f (y * m + x) :=
  H2.sum_range_mul m m f

/-- The tensor product interpolation problem is uniquely solvable. -/
theorem system_unique (junk : Nat → ℝ) (junkM : Nat → Nat → ℝ) (p : Nat) (hp : p ≤ 20) (y : Nat → ℝ)
    (h : ∀ r < (p + 1) * (p + 1), ∑ c ∈ range ((p + 1) * (p + 1)),
      system junk junkM (p + 1) (makeInterpolationMask (p + 1)) r c * y c = 0) :
    ∀ c < (p + 1) * (p + 1), y c = 0 := by
  have h1 : ∀ iy ≤ p, ∀ jx ≤ p, ∑ jy ∈ range (p + 1), bern p jy (node p iy) * y (jy * (p + 1) + jx) = 0 := by
    intro iy hiy
    refine bern_unisolvent p (fun jx => ∑ jy ∈ range (p + 1), bern p jy (node p iy) * y (jy * (p + 1) + jx)) (node p)
      (fun k hk => node_mem p k hk) (fun k _ l _ h => node_inj p k l h) ?_
    intro ix hix
    have := h (iy * (p + 1) + ix) (by nlinarith)
    rw [sum_pairs, sum_comm] at this
    rw [← this]
    refine sum_congr rfl fun jx hjx => ?_
    rw [mul_sum]
    refine sum_congr rfl fun jy hjy => ?_
    rw [system_apply junk junkM p hp iy ix jy jx hiy hix (by simp at hjy; omega) (by simp at hjx; omega)]
    ring
  intro c hc
  have h2 := bern_unisolvent p (fun jy => y (jy * (p + 1) + c % (p + 1))) (node p)
    (fun k hk => node_mem p k hk) (fun k _ l _ h => node_inj p k l h)
    (fun iy hiy => h1 iy hiy (c % (p + 1)) (by have := Nat.mod_lt c (show 0 < p + 1 by omega); omega)) (c / (p + 1))
    (by have := (Nat.div_lt_iff_lt_mul (show 0 < p + 1 by omega)).2 hc; omega)
  rwa [Nat.mul_comm, Nat.div_add_mod] at h2

/-- The local mask of an element. -/
theorem deBoor_unit (p q n r X d : Nat) (hq : 1 ≤ q) (hp : q ≤ 20) (hr : 1 ≤ r) (hX : X < n) (hd : d < splineDim q n r) :
    deBoorAll 19 (unitVec (splineDim q n r) d) ((List.range (splineDim q n r + q)).map (uniformKnot q n r) : List ℝ)
      ((List.range (p + 1)).map fun i => (X : ℝ) / n + 1 / n * node p i) =
      some ((List.range (p + 1)).map fun i => uniformSpline q n r d (((X : ℝ) + node p i) / n)) := by
  have hn : (0 : ℝ) < n := by exact_mod_cast (by omega : 0 < n)
  have hdim : q - 1 + r * (n - 1) + 1 = splineDim q n r := by
    unfold splineDim; rw [Nat.mul_comm r]; omega
  have k := knot_span q n r (n - 1) hq hr (by omega)
  rw [hdim] at k
  have hpt : ∀ i ∈ List.range (p + 1), (X : ℝ) / n + 1 / n * node p i = ((X : ℝ) + node p i) / n := fun i _ => by ring
  rw [List.map_congr_left hpt]
  have := C08_deBoorAll 19 (splineDim q n r) (q - 1) (fun i => if i = d then (1 : ℝ) else 0) (uniformKnot q n r)
    ((List.range (p + 1)).map fun i => ((X : ℝ) + node p i) / n) (uniformKnot_mono q n r (by omega) hr)
    (by have := span_lt q n r 0 hq (by omega); simpa using this) (by omega)
    (by
      rw [show splineDim q n r - 1 = q - 1 + r * (n - 1) by omega, k.1, k.2, div_lt_div_iff_of_pos_right hn]
      linarith)
    (by
      intro x hx
      obtain ⟨i, hi, rfl⟩ := List.mem_map.1 hx
      have := node_mem p i (by simp at hi; omega)
      have k0 := (knot_span q n r 0 hq hr (by omega)).1
      simp only [Nat.mul_zero, Nat.add_zero, Nat.cast_zero, zero_div] at k0
      rw [k0, knot_dim q n r (by omega)]
      refine ⟨by have := this.1; positivity, ?_⟩
      rw [div_le_one hn]
      have : (X : ℝ) + 1 ≤ n := by exact_mod_cast hX
      linarith)
  rw [show splineDim q n r + (q - 1) + 1 = splineDim q n r + q by omega] at this
  unfold unitVec
  rw [this, List.map_map]
  congr 1
  refine List.map_congr_left fun i _ => ?_
  simp only [Function.comp_apply, smul_eq_mul, mul_ite, mul_one, mul_zero, uniformSpline]
  rw [Finset.sum_ite_eq', if_pos (mem_range.2 hd)]

/-- The solution of the interpolation problem. -/
theorem localSolution_eq (junk : Nat → ℝ) (junkM : Nat → Nat → ℝ) (solve) (hs : SolvesSystems solve) (p qx qy n r X Y dx dy : Nat) (hp : p ≤ 19)
    (hqx : 1 ≤ qx) (hqy : 1 ≤ qy) (hx : qx = p + 1 ∨ qx = p) (hy : qy = p + 1 ∨ qy = p) (hr : 1 ≤ r) (hX : X < n) (hY : Y < n)
    (hdx : dx < splineDim qx n r) (hdy : dy < splineDim qy n r) :
    ∃ sol, localSolution junk solve (system junk junkM (p + 1) (makeInterpolationMask (p + 1))) (makeInterpolationMask (p + 1)) (p + 1) n
      ((List.range (splineDim qx n r + qx)).map (uniformKnot qx n r)) ((List.range (splineDim qy n r + qy)).map (uniformKnot qy n r))
      (splineDim qx n r) (splineDim qy n r) ((X : ℝ) / n, (Y : ℝ) / n) dx dy = some sol ∧
      ∀ i < (p + 1) * (p + 1), sol i = coef p qx n r X dx (i % (p + 1)) * coef p qy n r Y dy (i / (p + 1)) := by
  have hn : (0 : ℝ) < n := by exact_mod_cast (by omega : 0 < n)
  unfold localSolution
  have in01 : ∀ Z < n, ∀ x ∈ (makeInterpolationMask (p + 1)).map (fun m => (Z : ℝ) / n + 1 / (n : ℝ) * m), x < 1 ∧ x > 0 := by
    intro Z hZ x hx
    rw [mask_eq, List.map_map] at hx
    obtain ⟨i, hi, rfl⟩ := List.mem_map.1 hx
    have hm := node_mem p i (by simp at hi; omega)
    simp only [Function.comp_apply]
    rw [show (Z : ℝ) / n + 1 / n * node p i = ((Z : ℝ) + node p i) / n by ring]
    constructor
    · rw [div_lt_one hn]
      have : (Z : ℝ) + 1 ≤ n := by exact_mod_cast hZ
      linarith
    · have := hm.1; positivity
  rw [if_neg (by push Not; exact ⟨in01 X hX, in01 Y hY⟩)]
  simp only [mask_eq, List.map_map, Function.comp_def]
  rw [deBoor_unit p qx n r X dx hqx (by omega) hr hX hdx, deBoor_unit p qy n r Y dy hqy (by omega) hr hY hdy]
  refine ⟨_, rfl, ?_⟩
  rw [← mask_eq]
  refine hs _ _ _ (fun i => coef p qx n r X dx (i % (p + 1)) * coef p qy n r Y dy (i / (p + 1))) ?_ (system_unique junk junkM p (by omega))
  intro row hrow
  have hl : (makeInterpolationMask (p + 1) : List ℝ).length = p + 1 := by simp [makeInterpolationMask]
  unfold fillLoop1
  rw [hl, fillLoop_apply_gen (p + 1) (p + 1) (by omega) (fun ix iy => _ * _), if_pos hrow]
  have hix : row % (p + 1) < p + 1 := Nat.mod_lt _ (by omega)
  have hiy : row / (p + 1) < p + 1 := (Nat.div_lt_iff_lt_mul (by omega)).2 hrow
  have mem : ∀ (f : Nat → ℝ) i, i < p + 1 → ((List.range (p + 1)).map f).getD i 0 = f i := by
    intro f i hi
    rw [List.getD_eq_getElem?_getD, List.getElem?_map, List.getElem?_range hi]; rfl
  beta_reduce
  rw [mem _ _ hix, mem _ _ hiy]
  have mx := node_mem p (row % (p + 1)) (by omega)
  have my := node_mem p (row / (p + 1)) (by omega)
  rw [spline_bern p qx n r X dx hqx hx hr hX _ mx.1.le mx.2, spline_bern p qy n r Y dy hqy hy hr hY _ my.1.le my.2, sum_pairs, sum_mul_sum, sum_comm]
  refine sum_congr rfl fun jx hjx => sum_congr rfl fun jy hjy => ?_
  have e : row = row / (p + 1) * (p + 1) + row % (p + 1) := by rw [Nat.mul_comm, Nat.div_add_mod]
  have hjx := mem_range.1 hjx
  have hjy := mem_range.1 hjy
  rw [(divmod_pair hjx).1, (divmod_pair hjx).2]
  conv_lhs => rw [e]
  rw [system_apply junk junkM p (by omega) _ _ _ _ (by omega) (by omega) (by omega) (by omega)]
  ring

end Bembel.Projector
