import Verif.Model.Sphericals
import Verif.Spec.Sphericals
import Verif.Lemmas.SphericalSum
import Verif.Props.Degrees
/-!
# Property theorems C55: spherical and solid harmonics
-/

namespace Bembel.Props
open Spec Sph

/-! ## series on the unit sphere -/

/-- The pair of degree `n` and order `m` at `x`. -/
noncomputable def yy (x : V3) (n m : Nat) : Z := zz (cr (x 0) (x 1) m) (ci (x 0) (x 1) m) n m (x 2)

theorem yy_re (x : V3) (n m : Nat) : (yy x n m).1 = (harmonicPos n m x).re := by rw [harmonicPos_re]; rfl

theorem yy_im (x : V3) (n m : Nat) : (yy x n m).2 = (harmonicPos n m x).im := by rw [harmonicPos_im]; rfl

theorem yy_start (x : V3) : ((0.5 / Real.sqrt Real.pi, 0) : Z) = yy x 0 0 := by
  unfold yy zz; rw [q_zero, cr_zero, ci_zero, mul_one, mul_zero]

/-- The term of degree `j + k` and order `j`. -/
noncomputable def term (W : Nat → ℝ) (cs : List ℝ) (x : V3) (j k : Nat) : ℝ :=
  fac j * (W (j + k) * cs.getD ((j + k) * (j + k + 1) + j) 0 * (harmonicPos (j + k) j x).re)

theorem sphInner_eq (x : V3) (cs : List ℝ) (deg m : Nat) (hcs : deg * deg ≤ cs.length) (r : ℝ) :
    (List.range (deg - (m + 2))).foldlM (fun s k => sphInner x cs m (fac m) s (m + 2 + k)) (r, yy x m m, yy x (m + 1) m) =
      some (r + ∑ k ∈ Finset.range (deg - (m + 2)), term (fun _ => 1) cs x m (k + 2),
        yy x (m + (deg - (m + 2))) m, yy x (m + (deg - (m + 2)) + 1) m) := by
  have := foldlM_range_states (fun s k => sphInner x cs m (fac m) s (m + 2 + k))
    (fun k => (r + ∑ i ∈ Finset.range k, term (fun _ => 1) cs x m (i + 2), yy x (m + k) m, yy x (m + k + 1) m)) (deg - (m + 2)) (by
      intro k hk
      have hi := idx_lt (n := m + 2 + k) (j := m) (N := deg) (by omega) (by omega)
      unfold sphInner
      simp only [get_of_lt cs _ (hi.trans_le hcs), Option.bind_eq_bind, Option.bind_some]
      have e : threeTerm (x 2) (m + 2 + k) m (yy x (m + k) m) (yy x (m + k + 1) m) = yy x (m + 2 + k) m := by
        unfold yy
        rw [show m + 2 + k = m + k + 2 by ring]
        exact threeTerm_zz _ _ _ _ _ (by omega)
      rw [e, Finset.sum_range_succ]
      unfold term
      rw [yy_re, show m + (k + 1) = m + k + 1 by ring, show m + (k + 2) = m + 2 + k by ring, show m + k + 1 + 1 = m + 2 + k by ring]
      congr 2
      ring)
  simpa using this

theorem sphOuter_eq (x : V3) (cs : List ℝ) (deg m : Nat) (hcs : deg * deg ≤ cs.length) (hm : m + 1 < deg) (r : ℝ) :
    sphOuter x cs deg (r, yy x m m) m =
      some (r + ∑ k ∈ Finset.range (deg - m), term (fun _ => 1) cs x m k, yy x (m + 1) (m + 1)) := by
  unfold sphOuter
  have h1 := idx_lt (n := m) (j := m) (N := deg) le_rfl (by omega)
  have h2 := idx_lt (n := m + 1) (j := m) (N := deg) (by omega) (by omega)
  have e2 : second (x 2) m (yy x m m) = yy x (m + 1) m := second_zz _ _ _ _
  have e3 : nextOrder x m (yy x m m) = yy x (m + 1) (m + 1) := nextOrder_zz _ _ _ _
  simp only [get_of_lt cs _ (h1.trans_le hcs), get_of_lt cs _ (h2.trans_le hcs), Option.bind_eq_bind, Option.bind_some, e2, e3]
  have := sphInner_eq x cs deg m hcs (r + fac m * cs.getD (m * (m + 1) + m) 0 * (yy x m m).1 +
    fac m * cs.getD ((m + 1) * (m + 2) + m) 0 * (yy x (m + 1) m).1)
  unfold fac at this
  rw [this]
  simp only [Option.bind_some]
  rw [sum_split hm]
  unfold term fac
  rw [yy_re, yy_re]
  simp only [Nat.add_zero, add_assoc]
  congr 2
  ring_nf

theorem coef_abs (cs : List ℝ) : (fun (n : Nat) (m : Int) => coefficient cs n |m|) = fun n m => cs.getD (n * (n + 1) + m.natAbs) 0 := by
  funext n m
  unfold coefficient
  congr 1
  rw [← Int.natCast_natAbs]
  have : (n : Int) * n + n + (m.natAbs : Int) = ((n * (n + 1) + m.natAbs : Nat) : Int) := by push_cast; ring
  rw [this, Int.toNat_natCast]

/-- C55: with `deg^2` coefficients, the value on the unit sphere is the series of the harmonics of degree below `deg` (at least
degree 0), with the coefficient of the order `|m|` for the order `m`. -/
theorem C55_sphericals (x : V3) (cs : List ℝ) (deg : Nat) (hx : ‖x‖ = 1) (hcs : deg * deg ≤ cs.length) (h1 : 1 ≤ cs.length) :
    ∃ r : ℝ, evaluateSphericals x cs deg = some r ∧
      (r : ℂ) = harmonicSeries (max deg 1) (fun _ => 1) (fun n m => coefficient cs n |m|) x := by
  rw [coef_abs, series_eq (max deg 1) (fun _ => 1) (fun n j => cs.getD (n * (n + 1) + j) 0) x]
  unfold evaluateSphericals
  rw [if_neg (by rw [hx]; norm_num)]
  by_cases hd : deg ≤ 1
  · simp only [hd, if_true]
    rw [get_of_lt cs 0 (by omega)]
    refine ⟨_, rfl, ?_⟩
    rw [max_eq_right hd]
    simp only [Finset.sum_range_one, Nat.sub_zero, fac, if_true]
    rw [← yy_re, ← yy_start]
    push_cast; simp
  · simp only [hd, if_false]
    have hloop := foldlM_range_states (sphOuter x cs deg)
      (fun m => (∑ j ∈ Finset.range m, ∑ k ∈ Finset.range (deg - j), term (fun _ => 1) cs x j k, yy x m m)) (deg - 1) (by
        intro m hm
        rw [sphOuter_eq x cs deg m hcs (by omega), Finset.sum_range_succ])
    simp only [Finset.sum_range_zero, ← yy_start] at hloop
    have hl := idx_lt (n := deg - 1) (j := deg - 1) (N := deg) le_rfl (by omega)
    have e : (deg - 1) * (deg + 1) = (deg - 1) * (deg - 1 + 1) + (deg - 1) := by
      obtain ⟨d, rfl⟩ : ∃ d, deg = d + 1 := ⟨deg - 1, by omega⟩
      simp only [Nat.add_sub_cancel]; ring
    rw [hloop]
    simp only [Option.bind_eq_bind, Option.bind_some]
    rw [e, get_of_lt cs _ (hl.trans_le hcs)]
    refine ⟨_, rfl, ?_⟩
    rw [max_eq_left (by omega)]
    congr 1
    obtain ⟨d, rfl⟩ : ∃ d, deg = d + 2 := ⟨deg - 2, by omega⟩
    rw [show d + 2 - 1 = d + 1 by omega]
    conv_rhs => rw [show d + 2 = d + 1 + 1 by ring, Finset.sum_range_succ]
    congr 1
    rw [show d + 1 + 1 - (d + 1) = 1 by omega, Finset.sum_range_one, yy_re]
    unfold fac
    rw [if_neg (by omega)]
    simp only [Nat.add_zero]; ring

theorem symmetric_series (N : Nat) (w : Nat → ℝ) (cs : List ℝ) (x : V3) (h : SymmetricCoefficients N cs) :
    harmonicSeries N w (fun n m => coefficient cs n |m|) x = harmonicSeries N w (coefficient cs) x := by
  unfold harmonicSeries
  refine Finset.sum_congr rfl fun n hn => Finset.sum_congr rfl fun m hm => ?_
  rw [Finset.mem_Icc] at hm
  rcases abs_cases m with ⟨h1, _⟩ | ⟨h1, _⟩
  · simp only [h1]
  · simp only [h1]; rw [h n (Finset.mem_range.1 hn) m hm.1 hm.2]

/-- C55: for coefficients equal for the orders `m` and `-m`, the value on the unit sphere is the documented series, up to degree
`deg - 1`. -/
theorem C55_sphericals_symmetric (x : V3) (cs : List ℝ) (deg : Nat) (hx : ‖x‖ = 1) (hd : 1 ≤ deg) (hcs : deg * deg ≤ cs.length)
    (hsym : SymmetricCoefficients deg cs) : ∃ r : ℝ, evaluateSphericals x cs deg = some r ∧
      (r : ℂ) = harmonicSeries deg (fun _ => 1) (coefficient cs) x := by
  obtain ⟨r, h1, h2⟩ := C55_sphericals x cs deg hx hcs (le_trans (by nlinarith) hcs)
  refine ⟨r, h1, ?_⟩
  rw [h2, max_eq_left hd, symmetric_series _ _ _ _ hsym]

/-! ## solid harmonics -/

theorem solidInner_eq (y : V3) (norm : ℝ) (cs : List ℝ) (grad : Bool) (deg m : Nat) (hcs : deg * deg ≤ cs.length) (r : ℝ) :
    (List.range (deg - (m + 2))).foldlM (fun s k => solidInner y norm cs grad m (fac m) s (m + 2 + k))
        (r, fac m * solidWeight grad norm (m + 1), yy y m m, yy y (m + 1) m) =
      some (r + ∑ k ∈ Finset.range (deg - (m + 2)), term (solidWeight grad norm) cs y m (k + 2),
        fac m * solidWeight grad norm (m + (deg - (m + 2)) + 1), yy y (m + (deg - (m + 2))) m, yy y (m + (deg - (m + 2)) + 1) m) := by
  have := foldlM_range_states (fun s k => solidInner y norm cs grad m (fac m) s (m + 2 + k))
    (fun k => (r + ∑ i ∈ Finset.range k, term (solidWeight grad norm) cs y m (i + 2), fac m * solidWeight grad norm (m + k + 1),
      yy y (m + k) m, yy y (m + k + 1) m)) (deg - (m + 2)) (by
      intro k hk
      have hi := idx_lt (n := m + 2 + k) (j := m) (N := deg) (by omega) (by omega)
      unfold solidInner
      simp only [get_of_lt cs _ (hi.trans_le hcs), Option.bind_eq_bind, Option.bind_some]
      have e : threeTerm (y 2) (m + 2 + k) m (yy y (m + k) m) (yy y (m + k + 1) m) = yy y (m + 2 + k) m := by
        unfold yy
        rw [show m + 2 + k = m + k + 2 by ring]
        exact threeTerm_zz _ _ _ _ _ (by omega)
      have ef : (if grad = true then fac m * ((m + 2 + k : Nat) : ℝ) * powInt norm (((m + 2 + k : Nat) : Int) - 1) else fac m * solidWeight grad norm (m + k + 1) * norm) =
          fac m * solidWeight grad norm (m + 2 + k) := by
        unfold solidWeight
        cases grad
        · simp only [Bool.false_eq_true, if_false]
          rw [show m + 2 + k = m + k + 1 + 1 by ring, pow_succ norm (m + k + 1), mul_assoc]
        · simp only [if_true]
          rw [C57_power, mul_assoc]
      rw [e, Finset.sum_range_succ, ef]
      unfold term
      rw [yy_re, show m + (k + 1) = m + k + 1 by ring, show m + (k + 2) = m + 2 + k by ring, show m + k + 1 + 1 = m + 2 + k by ring]
      congr 2
      ring)
  simpa using this

theorem solidOuter_eq (y : V3) (norm : ℝ) (cs : List ℝ) (grad : Bool) (deg m : Nat) (hcs : deg * deg ≤ cs.length) (hm : m + 1 < deg)
    (r a b : ℝ) : solidOuter y norm cs deg grad (r, a, b, yy y m m) m =
      some (r + ∑ k ∈ Finset.range (deg - m), term (solidWeight grad norm) cs y m k, fac m, fac m * solidWeight grad norm (deg - 1),
        yy y (m + 1) (m + 1)) := by
  unfold solidOuter
  have h1 := idx_lt (n := m) (j := m) (N := deg) le_rfl (by omega)
  have h2 := idx_lt (n := m + 1) (j := m) (N := deg) (by omega) (by omega)
  have e2 : second (y 2) m (yy y m m) = yy y (m + 1) m := second_zz _ _ _ _
  have e3 : nextOrder y m (yy y m m) = yy y (m + 1) (m + 1) := nextOrder_zz _ _ _ _
  have hf : (if m = 0 then (1 : ℝ) else 2) = fac m := rfl
  have f1 : (if grad = true then fac m * m * powInt norm ((m : Int) - 1) else fac m * powInt norm m) = fac m * solidWeight grad norm m := by
    unfold solidWeight
    cases grad
    · simp [C57_power]
    · simp only [if_true]; rw [C57_power, mul_assoc]
  have f2 : (if grad = true then fac m * (m + 1) * powInt norm m else fac m * solidWeight grad norm m * norm) =
      fac m * solidWeight grad norm (m + 1) := by
    unfold solidWeight
    cases grad
    · simp [pow_succ, mul_assoc]
    · simp only [if_true]; rw [C57_power, mul_assoc]; push_cast; simp
  simp only [get_of_lt cs _ (h1.trans_le hcs), get_of_lt cs _ (h2.trans_le hcs), Option.bind_eq_bind, Option.bind_some, e2, e3, hf, f1, f2]
  rw [solidInner_eq y norm cs grad deg m hcs]
  simp only [Option.bind_some]
  rw [sum_split hm]
  unfold term
  rw [yy_re, yy_re, show m + (deg - (m + 2)) + 1 = deg - 1 by omega]
  simp only [Nat.add_zero, add_assoc]
  congr 2
  ring_nf

/-- C55: away from the origin, with `deg^2` coefficients, the value of the solid harmonics is the documented series up to degree
`deg - 1`, except that the last term (degree and order `deg - 1`) is scaled with the weight of degree `deg` (and counted once
instead of twice for `deg = 2`). -/
theorem C55_solid (x : V3) (cs : List ℝ) (deg : Nat) (grad : Bool) (hd : 2 ≤ deg) (hcs : deg * deg ≤ cs.length) (y : V3)
    (hy : y = (1 / ‖x‖) • x) : ∃ r : ℝ, evaluateSolidSphericals x cs deg grad = some r ∧
      (r : ℂ) = harmonicSeries deg (solidWeight grad ‖x‖) (fun n m => coefficient cs n |m|) y +
        (((if deg = 2 then 1 else 2) * solidWeight grad ‖x‖ deg - 2 * solidWeight grad ‖x‖ (deg - 1)) *
          coefficient cs (deg - 1) (deg - 1 : Nat) * (harmonic (deg - 1) (deg - 1 : Nat) y).re : ℝ) := by
  have hcoef : coefficient cs (deg - 1) (deg - 1 : Nat) = cs.getD ((deg - 1) * (deg - 1 + 1) + (deg - 1)) 0 := by
    have := congrFun (congrFun (coef_abs cs) (deg - 1)) ((deg - 1 : Nat) : Int)
    simp only [Nat.abs_cast] at this
    rw [this, Int.natAbs_natCast]
  have hharm : harmonic (deg - 1) ((deg - 1 : Nat) : Int) y = harmonicPos (deg - 1) (deg - 1) y := by
    unfold harmonic; rw [if_pos (by omega), Int.natAbs_natCast]
  rw [coef_abs, series_eq deg _ (fun n j => cs.getD (n * (n + 1) + j) 0) y, hcoef, hharm]
  unfold evaluateSolidSphericals
  rw [if_neg (by omega), if_neg (by omega)]
  simp only [← hy]
  have hloop := foldlM_range_states (solidOuter y ‖x‖ cs deg grad)
    (fun m => (∑ j ∈ Finset.range m, ∑ k ∈ Finset.range (deg - j), term (solidWeight grad ‖x‖) cs y j k,
      if m = 0 then 0 else fac (m - 1), if m = 0 then 0 else fac (m - 1) * solidWeight grad ‖x‖ (deg - 1), yy y m m)) (deg - 1) (by
      intro m hm
      rw [solidOuter_eq y _ cs grad deg m hcs (by omega), Finset.sum_range_succ]
      simp)
  simp only [Finset.sum_range_zero, ← yy_start, if_true] at hloop
  have hl := idx_lt (n := deg - 1) (j := deg - 1) (N := deg) le_rfl (by omega)
  have e : (deg - 1) * (deg + 1) = (deg - 1) * (deg - 1 + 1) + (deg - 1) := by
    obtain ⟨d, rfl⟩ : ∃ d, deg = d + 1 := ⟨deg - 1, by omega⟩
    simp only [Nat.add_sub_cancel]; ring
  rw [hloop]
  simp only [Option.bind_eq_bind, Option.bind_some]
  rw [e, get_of_lt cs _ (hl.trans_le hcs)]
  refine ⟨_, rfl, ?_⟩
  rw [← Complex.ofReal_add]
  congr 1
  obtain ⟨d, rfl⟩ : ∃ d, deg = d + 2 := ⟨deg - 2, by omega⟩
  rw [show d + 2 - 1 = d + 1 by omega]
  simp only [Nat.add_one_ne_zero, if_false]
  have ef : (if grad = true then fac d * ((d + 2 : Nat) : ℝ) * powInt ‖x‖ (((d + 2 : Nat) : Int) - 1) else
      fac d * solidWeight grad ‖x‖ (d + 1) * ‖x‖) = fac d * solidWeight grad ‖x‖ (d + 2) := by
    unfold solidWeight
    cases grad
    · simp only [Bool.false_eq_true, if_false]
      rw [pow_succ ‖x‖ (d + 1), mul_assoc]
    · simp only [if_true]
      rw [C57_power, mul_assoc]
  rw [show d + 1 - 1 = d by omega, ef]
  conv_rhs => rw [show d + 2 = d + 1 + 1 by ring, Finset.sum_range_succ]
  have hs : ∑ j ∈ Finset.range (d + 1), ∑ k ∈ Finset.range (d + 2 - j), term (solidWeight grad ‖x‖) cs y j k =
    ∑ j ∈ Finset.range (d + 1), ∑ k ∈ Finset.range (d + 1 + 1 - j), fac j * (solidWeight grad ‖x‖ (j + k) *
      cs.getD ((j + k) * (j + k + 1) + j) 0 * (harmonicPos (j + k) j y).re) := rfl
  rw [hs, show d + 1 + 1 - (d + 1) = 1 by omega, Finset.sum_range_one, yy_re]
  have hfd : fac d = if d + 1 + 1 = 2 then (1 : ℝ) else 2 := by unfold fac; congr 1; simp
  have hfd1 : fac (d + 1) = 2 := by unfold fac; rw [if_neg (by omega)]
  rw [hfd, hfd1]
  simp only [Nat.add_zero]
  ring

/-- C55: the documented series holds up to degree `deg - 1` if the last coefficient vanishes or on the unit sphere for `deg ≥ 3`. -/
theorem C55_solid_symmetric (x : V3) (cs : List ℝ) (deg : Nat) (grad : Bool) (hd : 2 ≤ deg) (hcs : deg * deg ≤ cs.length)
    (hsym : SymmetricCoefficients deg cs)
    (h : coefficient cs (deg - 1) (deg - 1 : Nat) = 0 ∨ (‖x‖ = 1 ∧ 3 ≤ deg ∧ grad = false)) :
    ∃ r : ℝ, evaluateSolidSphericals x cs deg grad = some r ∧
      (r : ℂ) = harmonicSeries deg (solidWeight grad ‖x‖) (coefficient cs) ((1 / ‖x‖) • x) := by
  obtain ⟨r, h1, h2⟩ := C55_solid x cs deg grad hd hcs _ rfl
  refine ⟨r, h1, ?_⟩
  rw [h2, symmetric_series _ _ _ _ hsym]
  rcases h with h | ⟨h, h3, h4⟩
  · rw [h]; simp
  · subst h4
    rw [if_neg (by omega)]; unfold solidWeight; simp [h]

theorem sphericalNorm_pos (n m : Nat) : 0 < sphericalNorm n m := Real.sqrt_pos.2 (norm_pos n m)

/-- C55 fails for the solid harmonics: with the coefficients of `Y_1^1 + Y_1^{-1}`, the value at `(s, 0, 0)` is `s/2` times the
documented one. -/
theorem C55_solid_violated (s : ℝ) (hs : 0 < s) (h2 : s ≠ 2) : ∃ r : ℝ, SymmetricCoefficients 2 [0, 1, 0, 1] ∧
    evaluateSolidSphericals !₂[s, 0, 0] [0, 1, 0, 1] 2 false = some r ∧
    (r : ℂ) ≠ harmonicSeries 2 (solidWeight false ‖(!₂[s, 0, 0] : V3)‖) (coefficient [0, 1, 0, 1]) ((1 / ‖(!₂[s, 0, 0] : V3)‖) • !₂[s, 0, 0]) := by
  have hsym : SymmetricCoefficients 2 [0, 1, 0, 1] := by
    intro n hn m h1 h2
    have h1 : n = 0 ∨ n = 1 := by omega
    rcases h1 with rfl | rfl
    · obtain rfl : m = 0 := by omega
      rfl
    · have : m = -1 ∨ m = 0 ∨ m = 1 := by omega
      rcases this with rfl | rfl | rfl <;> rfl
  obtain ⟨r, h3, h4⟩ := C55_solid !₂[s, 0, 0] [0, 1, 0, 1] 2 false le_rfl le_rfl _ rfl
  refine ⟨r, hsym, h3, ?_⟩
  rw [h4, symmetric_series _ _ _ _ hsym]
  intro hcontra
  have h5 := add_eq_left.1 hcontra
  rw [Complex.ofReal_eq_zero] at h5
  have hn : ‖(!₂[s, 0, 0] : V3)‖ = s := by
    rw [EuclideanSpace.norm_eq, Fin.sum_univ_three]
    simp [Real.sqrt_sq hs.le]
  have hh : (harmonic 1 ((1 : Nat) : Int) ((1 / s) • (!₂[s, 0, 0] : V3))).re = sphericalNorm 1 1 := by
    unfold harmonic
    rw [if_pos (by omega), Int.natAbs_natCast, harmonicPos_re]
    unfold q
    have hD : ∀ t, legendreDeriv 1 1 t = 1 := fun t => by rw [D_diag 0, D_zero_zero]; simp
    rw [hD, cr_succ, cr_zero, ci_zero]
    simp [hs.ne']
  have hco : coefficient [0, 1, 0, 1] 1 ((1 : Nat) : Int) = 1 := rfl
  rw [hn, show (2 : Nat) - 1 = 1 by rfl, hh, hco] at h5
  simp only [solidWeight, if_true, Bool.false_eq_true, if_false] at h5
  have hp := (sphericalNorm_pos 1 1).ne'
  have h6 : s * (s - 2) = 0 := by
    have := (mul_eq_zero.1 h5).resolve_right hp
    linear_combination this
  rcases mul_eq_zero.1 h6 with h | h
  · exact hs.ne' h
  · exact h2 (by linarith)

end Bembel.Props
