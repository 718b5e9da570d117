import Verif.Model.ExampleTools
import Mathlib.Tactic.Linarith
import Mathlib.Tactic.LinearCombination
import Mathlib.Analysis.SpecialFunctions.Pow.Real
import Mathlib.Analysis.SpecialFunctions.Log.Base
import Mathlib.Analysis.InnerProductSpace.Projection.Minimal
import Mathlib.Tactic.Ring
import Mathlib.Tactic.FieldSimp
import Mathlib.Algebra.Order.BigOperators.Ring.Finset
import Mathlib.Order.Bounds.Basic
/-!
# Property theorems C76: evaluation grids, error measures and convergence rates of the examples
-/

namespace Bembel.Props
open Bembel.ExampleTools Finset

/-! ## Grids -/

theorem getRow_setRow (M M' : EMat ℝ) (i j : Nat) (v : V3) (h : setRow M i v = some M') :
    M'.rows = M.rows ∧ M'.cols = M.cols ∧ i < M.rows ∧ getRow M' i = some v ∧ (j ≠ i → getRow M' j = getRow M j) := by
  unfold setRow at h
  split at h
  · rename_i hh
    cases h
    refine ⟨rfl, rfl, hh.1, ?_, fun hj => ?_⟩
    · simp only [getRow, if_pos hh, if_true]
      congr 1
      ext k
      fin_cases k <;> simp
    · simp [getRow, hj]
  · cases h

/-- Filling rows in a loop: row `idx i` is `v i`, the other rows are unchanged. -/
theorem fill_rows (n : Nat) (idx : Nat → Nat) (v : Nat → V3) (M : EMat ℝ) (hc : M.cols = 3)
    (hlt : ∀ i < n, idx i < M.rows) (hinj : ∀ i < n, ∀ j < n, idx i = idx j → i = j) :
    ∃ M', (List.range n).foldlM (fun out i => setRow out (idx i) (v i)) M = some M' ∧ M'.rows = M.rows ∧ M'.cols = 3 ∧
      (∀ i < n, getRow M' (idx i) = some (v i)) ∧ ∀ j, (∀ i < n, j ≠ idx i) → getRow M' j = getRow M j := by
  induction n with
  | zero => exact ⟨M, rfl, rfl, hc, by simp, by simp⟩
  | succ n ih =>
    obtain ⟨M', h1, h2, h3, h4, h5⟩ := ih (fun i hi => hlt i (by omega)) fun i hi j hj => hinj i (by omega) j (by omega)
    have hs : ∃ M'', setRow M' (idx n) (v n) = some M'' := by
      unfold setRow
      rw [if_pos ⟨by rw [h2]; exact hlt n (by omega), h3⟩]
      exact ⟨_, rfl⟩
    obtain ⟨M'', hs⟩ := hs
    refine ⟨M'', ?_, ?_, ?_, ?_, ?_⟩
    · rw [List.range_succ, List.foldlM_append, h1]
      simp [hs]
    · rw [(getRow_setRow _ _ _ 0 _ hs).1, h2]
    · rw [(getRow_setRow _ _ _ 0 _ hs).2.1, h3]
    · intro i hi
      rcases Nat.lt_succ_iff_lt_or_eq.1 hi with h | rfl
      · rw [(getRow_setRow _ _ _ (idx i) _ hs).2.2.2.2 fun e => by have := hinj i (by omega) n (by omega) e; omega]
        exact h4 i h
      · exact (getRow_setRow _ _ _ 0 _ hs).2.2.2.1
    · intro j hj
      rw [(getRow_setRow _ _ _ j _ hs).2.2.2.2 (hj n (by omega))]
      exact h5 j fun i hi => hj i (by omega)

theorem foldlM_nested {α : Type} (n m : Nat) (f : α → Nat → Option α) (s : α) :
    (List.range n).foldlM (fun s i => (List.range m).foldlM (fun s j => f s (j + i * m)) s) s = (List.range (n * m)).foldlM f s := by
  induction n with
  | zero => simp
  | succ n ih =>
    rw [List.range_succ, List.foldlM_append, ih, Nat.succ_mul, List.range_add, List.foldlM_append]
    congr 1
    funext s
    simp [List.foldlM_map, Nat.add_comm]

theorem foldlM_congr {α β : Type} (l : List β) (f g : α → β → Option α) (s : α) (h : ∀ s, ∀ b ∈ l, f s b = g s b) :
    l.foldlM f s = l.foldlM g s := by
  induction l generalizing s with
  | nil => rfl
  | cons b l ih =>
    rw [List.foldlM_cons, List.foldlM_cons, h s b (by simp)]
    congr 1
    funext s
    exact ih s fun s b hb => h s b (by simp [hb])

/-- **C76**: for coordinate lists that are not empty, the tensor product grid is defined and has one row for every combination
of coordinates: row `ix + nx (iy + ny iz)` is the point `(X ix, Y iy, Z iz)`. -/
theorem C76_tensor (junk : Nat → Nat → ℝ) (X Y Z : List ℝ) (hX : X ≠ []) (hY : Y ≠ []) (hZ : Z ≠ []) :
    ∃ M, makeTensorProductGrid junk X Y Z = some M ∧ M.rows = X.length * Y.length * Z.length ∧ M.cols = 3 ∧
      ∀ (ix : Fin X.length) (iy : Fin Y.length) (iz : Fin Z.length),
        getRow M (ix + X.length * (iy + Y.length * iz)) = some !₂[X.get ix, Y.get iy, Z.get iz] := by
  have lX : 0 < X.length := List.length_pos_iff.2 hX
  have lY : 0 < Y.length := List.length_pos_iff.2 hY
  have lZ : 0 < Z.length := List.length_pos_iff.2 hZ
  set nx := X.length with hnx
  set ny := Y.length with hny
  set nz := Z.length with hnz
  let v : Nat → V3 := fun k => !₂[X[k % nx]!, Y[k / nx % ny]!, Z[k / nx / ny]!]
  have e : makeTensorProductGrid junk X Y Z =
      (List.range (nz * ny * nx)).foldlM (fun out i => setRow out i (v i)) ⟨nx * ny * nz, 3, junk⟩ := by
    rw [← foldlM_nested (nz * ny) nx, ← foldlM_nested nz ny]
    unfold makeTensorProductGrid
    rw [Nat.max_eq_left lX, Nat.max_eq_left lY, Nat.max_eq_left lZ]
    refine foldlM_congr _ _ _ _ fun s iz hiz => foldlM_congr _ _ _ _ fun s iy hiy => foldlM_congr _ _ _ _ fun s ix hix => ?_
    rw [List.mem_range] at hiz hiy hix
    have e1 : (ix + (iy + iz * ny) * nx) % nx = ix := by rw [Nat.add_mul_mod_self_right, Nat.mod_eq_of_lt hix]
    have e2 : (ix + (iy + iz * ny) * nx) / nx = iy + iz * ny := by
      rw [Nat.add_mul_div_right _ _ lX, Nat.div_eq_of_lt hix, Nat.zero_add]
    have e3 : (iy + iz * ny) % ny = iy := by rw [Nat.add_mul_mod_self_right, Nat.mod_eq_of_lt hiy]
    have e4 : (iy + iz * ny) / ny = iz := by rw [Nat.add_mul_div_right _ _ lY, Nat.div_eq_of_lt hiy, Nat.zero_add]
    have i1 : X[ix]? = some X[ix]! := by rw [List.getElem?_eq_getElem hix, getElem!_pos X ix hix]
    have i2 : Y[iy]? = some Y[iy]! := by rw [List.getElem?_eq_getElem hiy, getElem!_pos Y iy hiy]
    have i3 : Z[iz]? = some Z[iz]! := by rw [List.getElem?_eq_getElem hiz, getElem!_pos Z iz hiz]
    show (X[ix]?.bind fun x => Y[iy]?.bind fun y => Z[iz]?.bind fun z => _) = _
    rw [i1, i2, i3]
    simp only [Option.bind_some, v, e1, e2, e3, e4]
    congr 1
    ring
  obtain ⟨M, h1, h2, h3, h4, -⟩ := fill_rows (nz * ny * nx) id v ⟨nx * ny * nz, 3, junk⟩ rfl
    (fun i hi => by show i < nx * ny * nz; rw [Nat.mul_comm nx, Nat.mul_comm _ nz, ← Nat.mul_assoc]; exact hi) (fun i _ j _ h => h)
  refine ⟨M, by rw [e]; exact h1, h2, h3, fun ix iy iz => ?_⟩
  have e2 : (ix.1 + nx * (iy + ny * iz)) / nx = iy + ny * iz := by
    rw [Nat.add_mul_div_left _ _ lX, Nat.div_eq_of_lt ix.2, Nat.zero_add]
  have hlt : ix.1 + nx * (iy + ny * iz) < nz * ny * nx := by
    rw [← Nat.div_lt_iff_lt_mul lX, e2, ← Nat.div_lt_iff_lt_mul lY, Nat.add_mul_div_left _ _ lY, Nat.div_eq_of_lt iy.2, Nat.zero_add]
    exact iz.2
  have := h4 _ hlt
  rw [id] at this
  rw [this]
  have m1 : ix.1 % nx = ix.1 := Nat.mod_eq_of_lt ix.2
  have m2 : iy.1 % ny = iy.1 := Nat.mod_eq_of_lt iy.2
  have m3 : iy.1 / ny = 0 := Nat.div_eq_of_lt iy.2
  simp only [v, e2, Nat.add_mul_mod_self_left, m1, m2, m3, Nat.add_mul_div_left _ _ lY, Nat.zero_add]
  rw [getElem!_pos X ix.1 ix.2, getElem!_pos Y iy.1 iy.2, getElem!_pos Z iz.1 iz.2]
  rfl

/-- **C76** fails for an empty list of coordinates: instead of an empty grid the function reads beyond the end of the list. -/
theorem C76_tensor_violated (junk : Nat → Nat → ℝ) (Y Z : List ℝ) : makeTensorProductGrid junk [] Y Z = none := by
  have hY : max Y.length 1 = (max Y.length 1 - 1) + 1 := by omega
  have hZ : max Z.length 1 = (max Z.length 1 - 1) + 1 := by omega
  unfold makeTensorProductGrid
  simp only []
  rw [hZ, List.range_succ_eq_map, List.foldlM_cons, hY, List.range_succ_eq_map, List.foldlM_cons]
  rfl

/-- **C76**: every row of the sphere grid is a point at distance `|r|` of the centre; for `r ≠ 0` the points are distinct, and
their heights are equidistant. -/
theorem C76_sphere (junk : Nat → Nat → ℝ) (r : ℝ) (n : Nat) (center : V3) :
    ∃ M, makeSphereGrid junk r n center = some M ∧ M.rows = n ∧ M.cols = 3 ∧ ∃ p : Nat → V3,
      (∀ i < n, getRow M i = some (p i)) ∧ (∀ i < n, ‖p i - center‖ = |r|) ∧
      (∀ i < n, p i 2 = center 2 + r * (1 - (2 * i + 1) / n)) ∧ (r ≠ 0 → ∀ i < n, ∀ j < n, p i = p j → i = j) := by
  obtain ⟨M, h1, h2, h3, h4, -⟩ := fill_rows n id (fun i : Nat =>
    (!₂[r * Real.cos (2 * Real.pi * (i + 0.5) / ((1 + Real.sqrt 5) / 2)) * Real.sin (Real.arccos (1 - 2 * (i + 0.5) / n)),
      r * Real.sin (2 * Real.pi * (i + 0.5) / ((1 + Real.sqrt 5) / 2)) * Real.sin (Real.arccos (1 - 2 * (i + 0.5) / n)),
      r * Real.cos (Real.arccos (1 - 2 * (i + 0.5) / n))] + center : V3)) ⟨n, 3, junk⟩ rfl (fun i hi => hi) (fun i _ j _ h => h)
  have hz : ∀ i < n, (!₂[r * Real.cos (2 * Real.pi * (i + 0.5) / ((1 + Real.sqrt 5) / 2)) * Real.sin (Real.arccos (1 - 2 * (i + 0.5) / n)),
      r * Real.sin (2 * Real.pi * (i + 0.5) / ((1 + Real.sqrt 5) / 2)) * Real.sin (Real.arccos (1 - 2 * (i + 0.5) / n)),
      r * Real.cos (Real.arccos (1 - 2 * (i + 0.5) / n))] + center : V3) 2 = center 2 + r * (1 - (2 * i + 1) / n) := by
    intro i hi
    have hn : (0 : ℝ) < n := by exact_mod_cast (by omega : 0 < n)
    have hi' : (i : ℝ) + 1 ≤ n := by exact_mod_cast hi
    have e : 1 - 2 * ((i : ℝ) + 0.5) / n = 1 - (2 * i + 1) / n := by ring
    have l1 : -1 ≤ 1 - (2 * (i : ℝ) + 1) / n := by
      have : (2 * (i : ℝ) + 1) / n ≤ 2 := by rw [div_le_iff₀ hn]; linarith
      linarith
    have l2 : 1 - (2 * (i : ℝ) + 1) / n ≤ 1 := by
      have : 0 ≤ (2 * (i : ℝ) + 1) / n := by positivity
      linarith
    rw [e, Real.cos_arccos l1 l2]
    simp
    ring
  refine ⟨M, h1, h2, h3, _, h4, fun i hi => ?_, hz, fun hr i hi j hj hij => ?_⟩
  · rw [add_sub_cancel_right, EuclideanSpace.norm_eq, Fin.sum_univ_three]
    generalize (2 * Real.pi * ((i : ℝ) + 0.5) / ((1 + Real.sqrt 5) / 2)) = t
    generalize Real.arccos (1 - 2 * ((i : ℝ) + 0.5) / n) = p
    rw [← Real.sqrt_sq_eq_abs]
    congr 1
    simp [mul_pow, sq_abs]
    linear_combination (r ^ 2 * Real.sin p ^ 2) * Real.sin_sq_add_cos_sq t + r ^ 2 * Real.sin_sq_add_cos_sq p
  · have hn : (0 : ℝ) < n := by exact_mod_cast (by omega : 0 < n)
    have := congrArg (fun v : V3 => v 2) hij
    simp only [hz i hi, hz j hj] at this
    have h5 := mul_left_cancel₀ hr (add_left_cancel this)
    have h6 : (2 * (i : ℝ) + 1) / n = (2 * (j : ℝ) + 1) / n := by linarith
    rw [div_left_inj' hn.ne'] at h6
    have : (i : ℝ) = j := by linarith
    exact_mod_cast this

/-! ## Errors -/

section
variable {R : Type} [NormedField R]

theorem mapM_range {α : Type} (n : Nat) (f : Nat → Option α) (g : Nat → α) (h : ∀ i < n, f i = some (g i)) :
    (List.range n).mapM f = some ((List.range n).map g) := by
  induction n with
  | zero => rfl
  | succ n ih =>
    rw [List.range_succ, List.mapM_append, ih fun i hi => h i (by omega)]
    simp [h n (by omega)]

/-- The loop that computes a maximum. -/
theorem fold_max (n : Nat) (F : ℝ → Nat → Option ℝ) (g : Nat → ℝ) (h0 : ∀ i, 0 ≤ g i)
    (h : ∀ m, ∀ i < n, F m i = some (if g i > m then g i else m)) :
    ∃ m, (List.range n).foldlM F 0 = some m ∧ (∀ i < n, g i ≤ m) ∧ ((∃ i < n, m = g i) ∨ n = 0 ∨ m = 0) := by
  induction n with
  | zero => exact ⟨0, rfl, by simp, by simp⟩
  | succ n ih =>
    obtain ⟨m, h1, h2, h3⟩ := ih fun m i hi => h m i (by omega)
    refine ⟨if g n > m then g n else m, ?_, ?_, ?_⟩
    · rw [List.range_succ, List.foldlM_append, h1]
      simp [h m n (by omega)]
    · intro i hi
      rcases Nat.lt_succ_iff_lt_or_eq.1 hi with hi | rfl
      · split
        · have := h2 i hi; linarith
        · exact h2 i hi
      · split <;> linarith
    · split
      · exact Or.inl ⟨n, by omega, rfl⟩
      · rename_i hm
        rcases h3 with ⟨i, hi, e⟩ | hn | hm0
        · exact Or.inl ⟨i, by omega, e⟩
        · subst hn
          simp at h1
          exact Or.inr (Or.inr h1.symm)
        · exact Or.inr (Or.inr hm0)

theorem fold_isGreatest (n : Nat) (hn : 0 < n) (F : ℝ → Nat → Option ℝ) (g : Nat → ℝ) (h0 : ∀ i, 0 ≤ g i)
    (h : ∀ m, ∀ i < n, F m i = some (if g i > m then g i else m)) :
    ∃ m, (List.range n).foldlM F 0 = some m ∧ IsGreatest {e | ∃ i < n, e = g i} m := by
  obtain ⟨m, h1, h2, h3⟩ := fold_max n F g h0 h
  refine ⟨m, h1, ?_, ?_⟩
  · rcases h3 with h3 | h3 | h3
    · exact h3
    · omega
    · exact ⟨0, hn, by rw [h3]; have := h2 0 hn; rw [h3] at this; exact le_antisymm (h0 0) this⟩
  · rintro e ⟨i, hi, rfl⟩
    exact h2 i hi

theorem linearGet_vector (pot : EMat R) (n : Nat) (hs : pot.rows = n ∧ pot.cols = 1 ∨ pot.rows = 1 ∧ pot.cols = n) (i : Nat) (hi : i < n) :
    linearGet pot i = some (if pot.cols = 1 then pot.at' i 0 else pot.at' 0 i) := by
  unfold linearGet
  rcases hs with ⟨a, b⟩ | ⟨a, b⟩
  · rw [a, b, if_pos (by omega), if_pos rfl, Nat.mod_eq_of_lt hi, Nat.div_eq_of_lt hi]
  · rw [a, b, if_pos (by omega), Nat.mod_one, Nat.div_one]
    split
    · have : i = 0 := by omega
      rw [this]
    · rfl

/-- **C76**: for a scalar potential stored in a row or in a column, `errors` returns the distance to the reference solution in
every point of the grid and `maxPointwiseError` the largest of them. -/
theorem C76_errors (pot : EMat R) (grid : EMat ℝ) (f : V3 → R) (n : Nat) (hn : 0 < n) (x : Nat → V3)
    (hs : pot.rows = n ∧ pot.cols = 1 ∨ pot.rows = 1 ∧ pot.cols = n) (hg : grid.rows = n) (hc : grid.cols = 3)
    (hx : ∀ i < n, getRow grid i = some (x i)) :
    errors pot grid f = some ((List.range n).map fun i => ‖(if pot.cols = 1 then pot.at' i 0 else pot.at' 0 i) - f (x i)‖) ∧
    ∃ m, maxPointwiseError pot grid f = some m ∧
      IsGreatest {e | ∃ i < n, e = ‖(if pot.cols = 1 then pot.at' i 0 else pot.at' 0 i) - f (x i)‖} m := by
  have k1 : max pot.cols pot.rows = n := by rcases hs with ⟨a, b⟩ | ⟨a, b⟩ <;> rw [a, b] <;> omega
  have k2 : min pot.cols pot.rows = 1 := by rcases hs with ⟨a, b⟩ | ⟨a, b⟩ <;> rw [a, b] <;> omega
  constructor
  · unfold errors
    rw [if_pos ⟨by rw [k1, hg], hc, by rw [Nat.min_comm, k2]; decide⟩, hg]
    refine mapM_range n _ _ fun i hi => ?_
    rw [linearGet_vector pot n hs i hi, hx i hi]
    rfl
  · unfold maxPointwiseError
    rw [if_pos ⟨by rw [k1, hg], hc, k2⟩, hg]
    refine fold_isGreatest n hn _ _ (fun i => norm_nonneg _) fun m i hi => ?_
    rw [linearGet_vector pot n hs i hi, hx i hi]
    simp only [Option.bind_eq_bind, Option.bind_some]

end

/-- **C76**: for a vector field with one row per point and at least three points, `maxPointwiseError` is the largest Euclidean
distance to the reference solution. -/
theorem C76_field (pot : EMat ℂ) (grid : EMat ℝ) (f : V3 → Fin 3 → ℂ) (n : Nat) (hn : 3 ≤ n) (x : Nat → V3)
    (hr : pot.rows = n) (hpc : pot.cols = 3) (hg : grid.rows = n) (hc : grid.cols = 3) (hx : ∀ i < n, getRow grid i = some (x i)) :
    ∃ m, maxPointwiseErrorField pot grid f = some m ∧
      IsGreatest {e | ∃ i < n, e = Real.sqrt (∑ c : Fin 3, ‖pot.at' i c - f (x i) c‖ ^ 2)} m := by
  unfold maxPointwiseErrorField
  rw [if_pos ⟨by rw [hpc, hc], by rw [hpc, hr, hg]; omega, hc, hpc⟩, hg]
  refine fold_isGreatest n (by omega) _ _ (fun i => Real.sqrt_nonneg _) fun m i hi => ?_
  rw [hx i hi, hr]
  simp only [Option.bind_eq_bind, Option.bind_some, if_pos hi]

theorem mapM_range_none {α : Type} (n k : Nat) (hk : k < n) (f : Nat → Option α) (h : f k = none) : (List.range n).mapM f = none := by
  induction n with
  | zero => omega
  | succ n ih =>
    rw [List.range_succ, List.mapM_append]
    rcases Nat.lt_succ_iff_lt_or_eq.1 hk with hk | rfl
    · simp [ih hk]
    · cases (List.range k).mapM f <;> simp [h]

/-- **C76** fails for vector fields: `errors` has undefined behaviour for every grid that does not have exactly three points,
and `maxPointwiseError` for every grid with one or two points, whatever the shape of the potential. -/
theorem C76_field_violated (pot : EMat ℂ) (grid : EMat ℝ) :
    (∀ f kappa, grid.rows ≠ 3 → errorsField pot grid f kappa = none) ∧
    ∀ f, grid.rows < 3 → maxPointwiseErrorField pot grid f = none := by
  constructor
  · intro f kappa h
    unfold errorsField
    split
    · rename_i hh
      refine mapM_range_none _ 3 (by omega) _ ?_
      rw [hh.2.2]
      cases getRow grid 3 <;> simp
    · rfl
  · intro f h
    unfold maxPointwiseErrorField
    rw [if_neg (by omega)]

/-! ## Rates of convergence -/

/-- The solver of the least squares problem returns a minimiser of the sum of squares. -/
def LeastSquares (solve : Solver) : Prop := ∀ (n : Nat) (A : Fin n → Fin 2 → ℝ) (b : Fin n → ℝ) (y : Fin 2 → ℝ),
  ∑ i, (∑ c, A i c * solve n A b c - b i) ^ 2 ≤ ∑ i, (∑ c, A i c * y c - b i) ^ 2

/-- The normal equations. -/
theorem normal_equations (solve : Solver) (hs : LeastSquares solve) (n : Nat) (A : Fin n → Fin 2 → ℝ) (b : Fin n → ℝ) (d : Fin 2 → ℝ) :
    ∑ i, (∑ c, A i c * solve n A b c - b i) * ∑ c, A i c * d c = 0 := by
  set x := solve n A b
  set g := ∑ i, (∑ c, A i c * x c - b i) * ∑ c, A i c * d c
  set h := ∑ i, (∑ c, A i c * d c) ^ 2
  have hh : 0 ≤ h := Finset.sum_nonneg fun i _ => sq_nonneg _
  have key : ∀ ε : ℝ, 0 ≤ 2 * ε * g + ε ^ 2 * h := by
    intro ε
    have := hs n A b fun c => x c + ε * d c
    have e : ∑ i, (∑ c, A i c * (x c + ε * d c) - b i) ^ 2 = ∑ i, (∑ c, A i c * x c - b i) ^ 2 + 2 * ε * g + ε ^ 2 * h := by
      simp only [g, h, Finset.mul_sum, ← Finset.sum_add_distrib, Fin.sum_univ_two]
      refine Finset.sum_congr rfl fun i _ => ?_
      ring
    rw [e] at this
    linarith
  have := key (-g / (h + 1))
  have e : 2 * (-g / (h + 1)) * g + (-g / (h + 1)) ^ 2 * h = -(g ^ 2 * (h + 2) / (h + 1) ^ 2) := by
    field_simp
    ring
  rw [e] at this
  by_contra hg
  have : 0 < g ^ 2 * (h + 2) / (h + 1) ^ 2 := by positivity
  linarith

/-- **C76**: the estimated rate of convergence is the negative slope of the regression line of the binary logarithms of the
errors against their index. -/
theorem C76_slope (solve : Solver) (hs : LeastSquares solve) (es : List ℝ) (h2 : 2 ≤ es.length) :
    let n := es.length
    let m : ℝ := (∑ i : Fin n, (i : ℝ)) / n
    estimateRateOfConvergence solve es =
      -(∑ i : Fin n, ((i : ℝ) - m) * Real.logb 2 |es.get i|) / ∑ i : Fin n, ((i : ℝ) - m) ^ 2 := by
  intro n m
  set A : Fin n → Fin 2 → ℝ := fun i => ![1, i]
  set b : Fin n → ℝ := fun i => Real.logb 2 |es.get i|
  set x := solve n A b
  have hx : estimateRateOfConvergence solve es = -x 1 := rfl
  have hn : (0 : ℝ) < n := by exact_mod_cast (by omega : 0 < n)
  have e1 := normal_equations solve hs n A b ![1, 0]
  have e2 := normal_equations solve hs n A b ![0, 1]
  simp only [Fin.sum_univ_two, A, Matrix.cons_val_zero, Matrix.cons_val_one] at e1 e2
  have hm : ∑ i : Fin n, ((i : ℝ) - m) = 0 := by
    rw [Finset.sum_sub_distrib]
    simp [m]
    field_simp
    ring
  have pos : 0 < ∑ i : Fin n, ((i : ℝ) - m) ^ 2 := by
    by_contra hneg
    have h0 : ∀ i : Fin n, (i : ℝ) - m = 0 := by
      have := (Finset.sum_eq_zero_iff_of_nonneg fun (i : Fin n) _ => sq_nonneg ((i : ℝ) - m)).1
        (le_antisymm (not_lt.1 hneg) (Finset.sum_nonneg fun i _ => sq_nonneg _))
      exact fun i => by simpa using this i (by simp)
    have a := h0 ⟨0, by omega⟩
    have b := h0 ⟨1, by omega⟩
    simp at a b
    linarith
  have key : ∑ i : Fin n, ((i : ℝ) - m) * (x 0 + i * x 1 - b i) = 0 := by
    have : ∑ i : Fin n, ((i : ℝ) - m) * (x 0 + i * x 1 - b i) =
        ∑ i : Fin n, (1 * x 0 + (i : ℝ) * x 1 - b i) * (1 * 0 + i * 1) - m * ∑ i : Fin n, (1 * x 0 + (i : ℝ) * x 1 - b i) * (1 * 1 + i * 0) := by
      rw [Finset.mul_sum, ← Finset.sum_sub_distrib]
      refine Finset.sum_congr rfl fun i _ => ?_
      ring
    rw [this, e1, e2]
    ring
  have k2 : ∑ i : Fin n, ((i : ℝ) - m) * (x 0 + i * x 1 - b i) =
      x 1 * ∑ i : Fin n, ((i : ℝ) - m) ^ 2 + (x 0 + m * x 1) * ∑ i : Fin n, ((i : ℝ) - m) - ∑ i : Fin n, ((i : ℝ) - m) * b i := by
    rw [Finset.mul_sum, Finset.mul_sum, ← Finset.sum_add_distrib, ← Finset.sum_sub_distrib]
    refine Finset.sum_congr rfl fun i _ => ?_
    ring
  rw [hx, eq_div_iff pos.ne']
  rw [k2, hm] at key
  linarith

/-- **C76**: for errors that decay exactly like `C 2^(-p i)` the estimated rate is `p`, and the check against an expected rate
compares `p` with the expected rate times the tolerance. -/
theorem C76_rate (solve : Solver) (hs : LeastSquares solve) (es : List ℝ) (h2 : 2 ≤ es.length) (C p : ℝ) (hC : 0 < C)
    (he : ∀ i : Fin es.length, |es.get i| = C * (2 : ℝ) ^ (-(p * i))) (expected : Int) (tol : ℝ) :
    estimateRateOfConvergence solve es = p ∧
    checkRateOfConvergence solve es expected tol = (decide (p > tol * expected), p) := by
  classical
  have key : estimateRateOfConvergence solve es = p := by
    have := C76_slope solve hs es h2
    simp only at this
    rw [this]
    set n := es.length
    set m : ℝ := (∑ i : Fin n, (i : ℝ)) / n
    have hn : (0 : ℝ) < n := by exact_mod_cast (by omega : 0 < n)
    have hm : ∑ i : Fin n, ((i : ℝ) - m) = 0 := by
      rw [Finset.sum_sub_distrib]
      simp [m]
      field_simp
      ring
    have pos : 0 < ∑ i : Fin n, ((i : ℝ) - m) ^ 2 := by
      by_contra hneg
      have h0 : ∀ i : Fin n, (i : ℝ) - m = 0 := by
        have := (Finset.sum_eq_zero_iff_of_nonneg fun (i : Fin n) _ => sq_nonneg ((i : ℝ) - m)).1
          (le_antisymm (not_lt.1 hneg) (Finset.sum_nonneg fun i _ => sq_nonneg _))
        exact fun i => by simpa using this i (by simp)
      have a := h0 ⟨0, by omega⟩
      have b := h0 ⟨1, by omega⟩
      simp at a b
      linarith
    have e : ∀ i : Fin n, Real.logb 2 |es.get i| = Real.logb 2 C - p * i := by
      intro i
      rw [he i, Real.logb_mul hC.ne' (by positivity), Real.logb_rpow (by norm_num) (by norm_num)]
      ring
    simp only [e]
    have k2 : ∑ i : Fin n, ((i : ℝ) - m) * (Real.logb 2 C - p * i) =
        (Real.logb 2 C - p * m) * ∑ i : Fin n, ((i : ℝ) - m) - p * ∑ i : Fin n, ((i : ℝ) - m) ^ 2 := by
      rw [Finset.mul_sum, Finset.mul_sum, ← Finset.sum_sub_distrib]
      refine Finset.sum_congr rfl fun i _ => ?_
      ring
    rw [k2, hm, mul_zero, zero_sub, neg_neg, mul_div_assoc, div_self pos.ne', mul_one]
  refine ⟨key, ?_⟩
  unfold checkRateOfConvergence
  simp only [key]

/-- Non-vacuity: a least squares solver exists, and the errors `1, 1/4, 1/16` decay with rate two. -/
example : (∃ solve, LeastSquares solve) ∧ ∀ i : Fin [1, 1 / 4, (1 / 16 : ℝ)].length, |[1, 1 / 4, (1 / 16 : ℝ)].get i| = 1 * (2 : ℝ) ^ (-(2 * (i : ℝ))) := by
  constructor
  · have ex : ∀ (n : Nat) (A : Fin n → Fin 2 → ℝ) (b : Fin n → ℝ), ∃ x : Fin 2 → ℝ, ∀ y : Fin 2 → ℝ,
        ∑ i, (∑ c, A i c * x c - b i) ^ 2 ≤ ∑ i, (∑ c, A i c * y c - b i) ^ 2 := by
      intro n A b
      let T : (Fin 2 → ℝ) →ₗ[ℝ] EuclideanSpace ℝ (Fin n) :=
        { toFun := fun x => WithLp.toLp 2 fun i => ∑ c, A i c * x c
          map_add' := fun x y => by ext i; simp [Fin.sum_univ_two]; ring
          map_smul' := fun r x => by ext i; simp [Fin.sum_univ_two]; ring }
      obtain ⟨v, ⟨x, rfl⟩, hv⟩ := (LinearMap.range T).exists_norm_eq_iInf_of_complete_subspace
        (Submodule.complete_of_finiteDimensional _) (WithLp.toLp 2 b)
      refine ⟨x, fun y => ?_⟩
      have hle : ‖WithLp.toLp 2 b - T x‖ ≤ ‖WithLp.toLp 2 b - T y‖ := by
        rw [hv]
        exact ciInf_le (f := fun w : LinearMap.range T => ‖WithLp.toLp 2 b - (w : EuclideanSpace ℝ (Fin n))‖)
          ⟨0, by rintro _ ⟨w, rfl⟩; exact norm_nonneg _⟩ ⟨T y, y, rfl⟩
      have hsq := pow_le_pow_left₀ (norm_nonneg _) hle 2
      rw [EuclideanSpace.norm_sq_eq, EuclideanSpace.norm_sq_eq] at hsq
      have q : ∀ z : Fin 2 → ℝ, ∑ i, ‖(WithLp.toLp 2 b - T z) i‖ ^ 2 = ∑ i, (∑ c, A i c * z c - b i) ^ 2 := by
        intro z
        refine Finset.sum_congr rfl fun i _ => ?_
        rw [Real.norm_eq_abs, sq_abs]
        show (b i - ∑ c, A i c * z c) ^ 2 = _
        ring
      rwa [q, q] at hsq
    exact ⟨fun n A b => (ex n A b).choose, fun n A b y => (ex n A b).choose_spec y⟩
  · intro i
    have h4 : ((2 : ℝ) ^ (2 : ℝ))⁻¹ = 1 / 4 := by
      rw [show (2 : ℝ) = ((2 : ℕ) : ℝ) by norm_num, Real.rpow_natCast]; norm_num
    have h16 : ((2 : ℝ) ^ (4 : ℝ))⁻¹ = 1 / 16 := by
      rw [show (4 : ℝ) = ((4 : ℕ) : ℝ) by norm_num, Real.rpow_natCast]; norm_num
    fin_cases i
    · simp
    · simp [Real.rpow_neg, h4]; norm_num
    · simp [Real.rpow_neg]; norm_num [h16]

end Bembel.Props
