import Mathlib.MeasureTheory.Measure.Lebesgue.Basic
import Mathlib.MeasureTheory.Measure.Prod
import Mathlib.MeasureTheory.Group.LIntegral
import Mathlib.MeasureTheory.Measure.Haar.Unique
import Mathlib.MeasureTheory.Measure.Lebesgue.EqHaar
/-! # Substitutions of variables in double integrals over the unit square, for nonnegative measurable functions -/

namespace Bembel
namespace Duffy
open MeasureTheory Set ENNReal

/-- Lebesgue measure on the unit interval. -/
noncomputable def μ1 : Measure ℝ := volume.restrict (Ioc 0 1)

instance : SFinite μ1 := by unfold μ1; infer_instance

instance : IsFiniteMeasure μ1 := by
  unfold μ1
  refine ⟨?_⟩
  rw [Measure.restrict_apply_univ, Real.volume_Ioc]
  exact ENNReal.ofReal_lt_top

variable {f : ℝ → ℝ≥0∞}

theorem lint_scale (hf : Measurable f) {c : ℝ} (hc : 0 < c) :
    ∫⁻ x in Ioc 0 c, f x = ENNReal.ofReal c * ∫⁻ x, f (c * x) ∂μ1 := by
  have h1 : ∫⁻ x in Ioc 0 c, f x = ∫⁻ x, (Ioc 0 c).indicator f x := (lintegral_indicator measurableSet_Ioc _).symm
  have h2 : ∫⁻ x, f (c * x) ∂μ1 = ∫⁻ x, (Ioc 0 c).indicator f (c * x) := by
    rw [μ1, ← lintegral_indicator measurableSet_Ioc]
    refine lintegral_congr fun x => ?_
    simp only [indicator, mem_Ioc]
    have : (0 < x ∧ x ≤ 1) ↔ (0 < c * x ∧ c * x ≤ c) := by
      constructor
      · rintro ⟨a, b⟩; exact ⟨mul_pos hc a, by nlinarith⟩
      · rintro ⟨a, b⟩; exact ⟨by by_contra h; nlinarith [not_lt.1 h], by by_contra h; nlinarith [not_le.1 h]⟩
    simp only [this]
  have hm : Measurable ((Ioc 0 c).indicator f) := hf.indicator measurableSet_Ioc
  rw [h1, h2]
  have h3 : ∫⁻ x, (Ioc 0 c).indicator f (c * x) = ∫⁻ x, (Ioc 0 c).indicator f x ∂(Measure.map (c * ·) volume) := by
    rw [lintegral_map hm (measurable_const_mul c)]
  rw [h3, Real.map_volume_mul_left hc.ne', lintegral_smul_measure, smul_eq_mul, ← mul_assoc, abs_of_pos (inv_pos.2 hc),
    ← ENNReal.ofReal_mul hc.le, mul_inv_cancel₀ hc.ne', ENNReal.ofReal_one, one_mul]

/-- Reflection of the unit interval. -/
theorem lint_reflect (f : ℝ → ℝ≥0∞) : ∫⁻ x, f (1 - x) ∂μ1 = ∫⁻ x, f x ∂μ1 := by
  have e : μ1 = volume.restrict (Ioo 0 1) := Measure.restrict_congr_set Ioo_ae_eq_Ioc.symm
  rw [e, ← lintegral_indicator measurableSet_Ioo, ← lintegral_indicator measurableSet_Ioo,
    ← lintegral_sub_left_eq_self ((Ioo (0:ℝ) 1).indicator f) 1]
  refine lintegral_congr fun x => ?_
  simp only [indicator, mem_Ioo]
  have : (0 < x ∧ x < 1) ↔ (0 < 1 - x ∧ 1 - x < 1) := by constructor <;> rintro ⟨a, b⟩ <;> constructor <;> linarith
  simp only [this]

theorem swap2 {G : ℝ → ℝ → ℝ≥0∞} (hG : Measurable fun p : ℝ × ℝ => G p.1 p.2) :
    ∫⁻ x, ∫⁻ y, G x y ∂μ1 ∂μ1 = ∫⁻ y, ∫⁻ x, G x y ∂μ1 ∂μ1 :=
  lintegral_lintegral_swap hG.aemeasurable

/-- Sum over the two triangles. -/
theorem split2 {G : ℝ → ℝ → ℝ≥0∞} (hG : Measurable fun p : ℝ × ℝ => G p.1 p.2) :
    ∫⁻ x, ∫⁻ y, G x y ∂μ1 ∂μ1 =
      (∫⁻ x, (∫⁻ y in Ioc 0 x, G x y) ∂μ1) + ∫⁻ y, (∫⁻ x in Ioc 0 y, G x y) ∂μ1 := by
  let H : ℝ → ℝ → ℝ≥0∞ := fun x y => if y ≤ x then G x y else 0
  let H' : ℝ → ℝ → ℝ≥0∞ := fun x y => if x < y then G x y else 0
  have hH : Measurable fun p : ℝ × ℝ => H p.1 p.2 :=
    Measurable.ite (measurableSet_le measurable_snd measurable_fst) hG measurable_const
  have hH' : Measurable fun p : ℝ × ℝ => H' p.1 p.2 :=
    Measurable.ite (measurableSet_lt measurable_fst measurable_snd) hG measurable_const
  have e : ∀ x y, G x y = H x y + H' x y := by
    intro x y
    simp only [H, H']
    split_ifs with h1 h2 h2
    · exact absurd h2 (not_lt.2 h1)
    · simp
    · simp
    · exact absurd (not_le.1 h1) h2
  have s1 : ∀ x, ∫⁻ y, G x y ∂μ1 = ∫⁻ y, H x y ∂μ1 + ∫⁻ y, H' x y ∂μ1 := by
    intro x
    simp only [e]
    exact lintegral_add_left (hH.comp (by fun_prop : Measurable fun y : ℝ => (x, y))) _
  simp only [s1]
  rw [lintegral_add_left (hH.lintegral_prod_right'), swap2 hH']
  congr 1
  · refine setLIntegral_congr_fun measurableSet_Ioc fun x hx => ?_
    rw [μ1, ← lintegral_indicator measurableSet_Ioc, ← lintegral_indicator measurableSet_Ioc]
    refine lintegral_congr fun y => ?_
    simp only [indicator, mem_Ioc, H]
    have := hx.2
    grind
  · refine setLIntegral_congr_fun measurableSet_Ioc fun y hy => ?_
    have e : ∫⁻ x in Ioc 0 y, G x y = ∫⁻ x in Ioo 0 y, G x y := setLIntegral_congr Ioo_ae_eq_Ioc.symm
    rw [e, μ1, ← lintegral_indicator measurableSet_Ioc, ← lintegral_indicator measurableSet_Ioo]
    refine lintegral_congr fun x => ?_
    simp only [indicator, mem_Ioc, mem_Ioo, H']
    have := hy.2
    grind

/-- `∫∫ G = ∫∫ s (G(s, s t) + G(s t, s))`. -/
theorem duffyB {G : ℝ → ℝ → ℝ≥0∞} (hG : Measurable fun p : ℝ × ℝ => G p.1 p.2) :
    ∫⁻ x, ∫⁻ y, G x y ∂μ1 ∂μ1 = ∫⁻ s, ∫⁻ t, ENNReal.ofReal s * (G s (s * t) + G (s * t) s) ∂μ1 ∂μ1 := by
  have k1 : Measurable fun p : ℝ × ℝ => G p.1 (p.1 * p.2) :=
    hG.comp (by fun_prop : Measurable fun p : ℝ × ℝ => (p.1, p.1 * p.2))
  have k2 : Measurable fun p : ℝ × ℝ => G (p.1 * p.2) p.1 :=
    hG.comp (by fun_prop : Measurable fun p : ℝ × ℝ => (p.1 * p.2, p.1))
  rw [split2 hG]
  have e1 : (∫⁻ x, (∫⁻ y in Ioc 0 x, G x y) ∂μ1) = ∫⁻ s, ENNReal.ofReal s * (∫⁻ t, G s (s * t) ∂μ1) ∂μ1 :=
    setLIntegral_congr_fun measurableSet_Ioc fun s hs =>
      lint_scale (hG.comp (by fun_prop : Measurable fun y : ℝ => (s, y))) hs.1
  have e2 : (∫⁻ y, (∫⁻ x in Ioc 0 y, G x y) ∂μ1) = ∫⁻ s, ENNReal.ofReal s * (∫⁻ t, G (s * t) s ∂μ1) ∂μ1 :=
    setLIntegral_congr_fun measurableSet_Ioc fun s hs =>
      lint_scale (hG.comp (by fun_prop : Measurable fun x : ℝ => (x, s))) hs.1
  have hm : Measurable fun s : ℝ => ENNReal.ofReal s * ∫⁻ t, G s (s * t) ∂μ1 :=
    ENNReal.measurable_ofReal.mul k1.lintegral_prod_right'
  rw [e1, e2, ← lintegral_add_left hm]
  refine lintegral_congr fun s => ?_
  have m1 : Measurable fun t => G s (s * t) := hG.comp (by fun_prop : Measurable fun t : ℝ => (s, s * t))
  have m2 : Measurable fun t => G (s * t) s := hG.comp (by fun_prop : Measurable fun t : ℝ => (s * t, s))
  rw [lintegral_const_mul _ (by fun_prop), lintegral_add_left m1, mul_add]

theorem lint_shift {f : ℝ → ℝ≥0∞} {x : ℝ} :
    ∫⁻ y in Ioc x 1, f y = ∫⁻ z in Ioc 0 (1 - x), f (x + z) := by
  rw [← lintegral_indicator measurableSet_Ioc, ← lintegral_indicator measurableSet_Ioc,
    ← lintegral_add_left_eq_self ((Ioc x 1).indicator f) x]
  refine lintegral_congr fun z => ?_
  simp only [indicator, mem_Ioc]
  have : (x < x + z ∧ x + z ≤ 1) ↔ (0 < z ∧ z ≤ 1 - x) := by constructor <;> rintro ⟨a, b⟩ <;> constructor <;> linarith
  simp only [this]

/-- One half of the relative coordinates: pairs with `x < y`. -/
theorem half {g : ℝ → ℝ → ℝ≥0∞} (hg : Measurable fun p : ℝ × ℝ => g p.1 p.2) :
    (∫⁻ y, (∫⁻ x in Ioc 0 y, g x y) ∂μ1) =
      ∫⁻ z, ENNReal.ofReal (1 - z) * (∫⁻ t, g (t * (1 - z)) (t * (1 - z) + z) ∂μ1) ∂μ1 := by
  -- substitute `x = y - z`
  have e1 : ∀ y, (∫⁻ x in Ioc 0 y, g x y) = ∫⁻ z in Ico 0 y, g (y - z) y := by
    intro y
    rw [← lintegral_indicator measurableSet_Ioc, ← lintegral_indicator measurableSet_Ico,
      ← lintegral_sub_left_eq_self ((Ioc 0 y).indicator fun x => g x y) y]
    refine lintegral_congr fun z => ?_
    simp only [indicator, mem_Ioc, mem_Ico]
    have : (0 < y - z ∧ y - z ≤ y) ↔ (0 ≤ z ∧ z < y) := by constructor <;> rintro ⟨a, b⟩ <;> constructor <;> linarith
    simp only [this]
  have e2 : (∫⁻ y, (∫⁻ x in Ioc 0 y, g x y) ∂μ1) = ∫⁻ y, ∫⁻ z, (if z < y then g (y - z) y else 0) ∂μ1 ∂μ1 := by
    refine setLIntegral_congr_fun measurableSet_Ioc fun y hy => ?_
    rw [e1, setLIntegral_congr (Ioo_ae_eq_Ico (a := (0:ℝ)) (b := y)).symm, μ1, ← lintegral_indicator measurableSet_Ioo,
      ← lintegral_indicator measurableSet_Ioc]
    refine lintegral_congr fun z => ?_
    simp only [indicator, mem_Ioc, mem_Ioo]
    have := hy.2
    grind
  have hm : Measurable fun p : ℝ × ℝ => (if p.2 < p.1 then g (p.1 - p.2) p.1 else 0 : ℝ≥0∞) :=
    Measurable.ite (measurableSet_lt measurable_snd measurable_fst)
      (hg.comp (by fun_prop : Measurable fun p : ℝ × ℝ => (p.1 - p.2, p.1))) measurable_const
  rw [e2, swap2 hm]
  -- now `y` in `(z, 1]`
  have e : μ1 = volume.restrict (Ioo 0 1) := Measure.restrict_congr_set Ioo_ae_eq_Ioc.symm
  rw [show ∀ F : ℝ → ℝ≥0∞, ∫⁻ z, F z ∂μ1 = ∫⁻ z in Ioo 0 1, F z from fun F => by rw [e],
    show ∀ F : ℝ → ℝ≥0∞, ∫⁻ z, F z ∂μ1 = ∫⁻ z in Ioo 0 1, F z from fun F => by rw [e]]
  refine setLIntegral_congr_fun measurableSet_Ioo fun z hz => ?_
  have e3 : (∫⁻ y, (if z < y then g (y - z) y else 0) ∂μ1) = ∫⁻ y in Ioc z 1, g (y - z) y := by
    rw [μ1, ← lintegral_indicator measurableSet_Ioc, ← lintegral_indicator measurableSet_Ioc]
    refine lintegral_congr fun y => ?_
    simp only [indicator, mem_Ioc]
    have := hz.1
    grind
  have hz' : 0 < 1 - z := by linarith [hz.2]
  have m : Measurable fun x => g (z + x - z) (z + x) :=
    hg.comp (by fun_prop : Measurable fun x : ℝ => (z + x - z, z + x))
  rw [e3, lint_shift, lint_scale m hz']
  congr 1
  refine lintegral_congr fun t => ?_
  ring_nf

/-- Relative coordinates: `∫∫ g = ∫∫ (1-z) (g(t(1-z), t(1-z)+z) + g(t(1-z)+z, t(1-z)))`. -/
theorem duffyA {g : ℝ → ℝ → ℝ≥0∞} (hg : Measurable fun p : ℝ × ℝ => g p.1 p.2) :
    ∫⁻ x, ∫⁻ y, g x y ∂μ1 ∂μ1 = ∫⁻ z, ∫⁻ t, ENNReal.ofReal (1 - z) *
      (g (t * (1 - z)) (t * (1 - z) + z) + g (t * (1 - z) + z) (t * (1 - z))) ∂μ1 ∂μ1 := by
  have hg' : Measurable fun p : ℝ × ℝ => g p.2 p.1 := hg.comp measurable_swap
  have k1 : Measurable fun p : ℝ × ℝ => g (p.2 * (1 - p.1) + p.1) (p.2 * (1 - p.1)) :=
    hg.comp (by fun_prop : Measurable fun p : ℝ × ℝ => (p.2 * (1 - p.1) + p.1, p.2 * (1 - p.1)))
  rw [split2 hg, half hg]
  have e := half (g := fun x y => g y x) hg'
  have hm : Measurable fun z : ℝ => ENNReal.ofReal (1 - z) * ∫⁻ t, g (t * (1 - z) + z) (t * (1 - z)) ∂μ1 :=
    (by fun_prop : Measurable fun z : ℝ => ENNReal.ofReal (1 - z)).mul k1.lintegral_prod_right'
  rw [e, ← lintegral_add_left hm]
  refine lintegral_congr fun z => ?_
  have m1 : Measurable fun t => g (t * (1 - z)) (t * (1 - z) + z) :=
    hg.comp (by fun_prop : Measurable fun t : ℝ => (t * (1 - z), t * (1 - z) + z))
  have m2 : Measurable fun t => g (t * (1 - z) + z) (t * (1 - z)) :=
    hg.comp (by fun_prop : Measurable fun t : ℝ => (t * (1 - z) + z, t * (1 - z)))
  rw [lintegral_const_mul _ (by fun_prop), lintegral_add_left m1, mul_add, add_comm]

/-! ### Four variables -/

theorem meas1 {α : Type} [MeasurableSpace α] {H : α × ℝ → ℝ≥0∞} (h : Measurable H) :
    Measurable fun a => ∫⁻ y, H (a, y) ∂μ1 := h.lintegral_prod_right'

theorem meas2 {α : Type} [MeasurableSpace α] {H : α × ℝ × ℝ → ℝ≥0∞} (h : Measurable H) :
    Measurable fun a => ∫⁻ x, ∫⁻ y, H (a, x, y) ∂μ1 ∂μ1 := by
  have : Measurable fun q : (α × ℝ) × ℝ => H (q.1.1, q.1.2, q.2) := by fun_prop
  exact meas1 (H := fun q : α × ℝ => ∫⁻ y, H (q.1, q.2, y) ∂μ1) (meas1 this)

/-- Congruence on the unit interval. -/
theorem congr1 {f g : ℝ → ℝ≥0∞} (h : ∀ x, 0 < x → x ≤ 1 → f x = g x) : ∫⁻ x, f x ∂μ1 = ∫⁻ x, g x ∂μ1 :=
  setLIntegral_congr_fun measurableSet_Ioc fun x hx => h x hx.1 hx.2

variable {F : (ℝ × ℝ) × (ℝ × ℝ) → ℝ≥0∞}

/-- Identical elements. -/
theorem duffy2 (hF : Measurable F) :
    ∫⁻ x1, ∫⁻ x2, ∫⁻ y1, ∫⁻ y2, F ((x1, x2), (y1, y2)) ∂μ1 ∂μ1 ∂μ1 ∂μ1 =
    ∫⁻ s, ∫⁻ t, ∫⁻ u, ∫⁻ v, (let t1 := u * (1 - s)
      let t2 := v * (1 - s * t)
      let t3 := u * (1 - s) + s
      let t4 := v * (1 - s * t) + s * t
      ENNReal.ofReal (s * (1 - s) * (1 - s * t)) *
      (F ((t1, t2), (t3, t4)) + F ((t3, t4), (t1, t2)) + F ((t1, t4), (t3, t2)) + F ((t3, t2), (t1, t4)) +
       F ((t2, t1), (t4, t3)) + F ((t4, t3), (t2, t1)) + F ((t2, t3), (t4, t1)) + F ((t4, t1), (t2, t3)))) ∂μ1 ∂μ1 ∂μ1 ∂μ1 := by
  have s1 : ∀ x1, ∫⁻ x2, ∫⁻ y1, ∫⁻ y2, F ((x1, x2), (y1, y2)) ∂μ1 ∂μ1 ∂μ1 =
      ∫⁻ y1, ∫⁻ x2, ∫⁻ y2, F ((x1, x2), (y1, y2)) ∂μ1 ∂μ1 ∂μ1 := fun x1 =>
    swap2 (G := fun x2 y1 => ∫⁻ y2, F ((x1, x2), (y1, y2)) ∂μ1)
      (meas1 (H := fun q : (ℝ × ℝ) × ℝ => F ((x1, q.1.1), (q.1.2, q.2))) (by fun_prop))
  let H : ℝ × ℝ × ℝ × ℝ → ℝ≥0∞ := fun q =>
    ENNReal.ofReal (1 - q.2.2.1) *
      (F ((q.1, q.2.2.2 * (1 - q.2.2.1)), (q.2.1, q.2.2.2 * (1 - q.2.2.1) + q.2.2.1)) +
       F ((q.1, q.2.2.2 * (1 - q.2.2.1) + q.2.2.1), (q.2.1, q.2.2.2 * (1 - q.2.2.1))))
  have hH : Measurable H := by unfold H; fun_prop
  have s2 : ∀ x1 y1, ∫⁻ x2, ∫⁻ y2, F ((x1, x2), (y1, y2)) ∂μ1 ∂μ1 = ∫⁻ z, ∫⁻ t, H (x1, y1, z, t) ∂μ1 ∂μ1 := fun x1 y1 =>
    duffyA (g := fun x2 y2 => F ((x1, x2), (y1, y2))) (by fun_prop)
  simp only [s1, s2]
  have mH : Measurable fun p : ℝ × ℝ => ∫⁻ z, ∫⁻ t, H (p.1, p.2, z, t) ∂μ1 ∂μ1 :=
    meas2 (H := fun q : (ℝ × ℝ) × ℝ × ℝ => H (q.1.1, q.1.2, q.2.1, q.2.2)) (by fun_prop)
  rw [duffyA (g := fun x1 y1 => ∫⁻ z, ∫⁻ t, H (x1, y1, z, t) ∂μ1 ∂μ1) mH]
  let K : ℝ × ℝ × ℝ × ℝ → ℝ≥0∞ := fun q =>
    ENNReal.ofReal (1 - q.1) * (H (q.2.2.1 * (1 - q.1), q.2.2.1 * (1 - q.1) + q.1, q.2.1, q.2.2.2) +
      H (q.2.2.1 * (1 - q.1) + q.1, q.2.2.1 * (1 - q.1), q.2.1, q.2.2.2))
  have hK : Measurable K := by unfold K; fun_prop
  have s3 : ∀ z1 t1, ENNReal.ofReal (1 - z1) * (∫⁻ z, ∫⁻ t, H (t1 * (1 - z1), t1 * (1 - z1) + z1, z, t) ∂μ1 ∂μ1 +
      ∫⁻ z, ∫⁻ t, H (t1 * (1 - z1) + z1, t1 * (1 - z1), z, t) ∂μ1 ∂μ1) =
      ∫⁻ z2, ∫⁻ t2, K (z1, z2, t1, t2) ∂μ1 ∂μ1 := by
    intro z1 t1
    have a1 : Measurable fun z => ∫⁻ t, H (t1 * (1 - z1), t1 * (1 - z1) + z1, z, t) ∂μ1 :=
      meas1 (H := fun q : ℝ × ℝ => H (t1 * (1 - z1), t1 * (1 - z1) + z1, q.1, q.2)) (by fun_prop)
    have a2 : Measurable fun z => ∫⁻ t, H (t1 * (1 - z1) + z1, t1 * (1 - z1), z, t) ∂μ1 :=
      meas1 (H := fun q : ℝ × ℝ => H (t1 * (1 - z1) + z1, t1 * (1 - z1), q.1, q.2)) (by fun_prop)
    rw [← lintegral_add_left a1, ← lintegral_const_mul _ (by fun_prop)]
    refine lintegral_congr fun z2 => ?_
    rw [← lintegral_add_left (by fun_prop), ← lintegral_const_mul _ (by fun_prop)]
  simp only [s3]
  have s4 : ∀ z1, ∫⁻ t1, ∫⁻ z2, ∫⁻ t2, K (z1, z2, t1, t2) ∂μ1 ∂μ1 ∂μ1 = ∫⁻ z2, ∫⁻ t1, ∫⁻ t2, K (z1, z2, t1, t2) ∂μ1 ∂μ1 ∂μ1 :=
    fun z1 => swap2 (G := fun t1 z2 => ∫⁻ t2, K (z1, z2, t1, t2) ∂μ1)
      (meas1 (H := fun q : (ℝ × ℝ) × ℝ => K (z1, q.1.2, q.1.1, q.2)) (by fun_prop))
  simp only [s4]
  have mK : Measurable fun p : ℝ × ℝ => ∫⁻ t1, ∫⁻ t2, K (p.1, p.2, t1, t2) ∂μ1 ∂μ1 :=
    meas2 (H := fun q : (ℝ × ℝ) × ℝ × ℝ => K (q.1.1, q.1.2, q.2.1, q.2.2)) (by fun_prop)
  rw [duffyB (G := fun z1 z2 => ∫⁻ t1, ∫⁻ t2, K (z1, z2, t1, t2) ∂μ1 ∂μ1) mK]
  refine congr1 fun s hs0 hs1 => congr1 fun t ht0 ht1 => ?_
  have s5 : ∫⁻ t1, ∫⁻ t2, K (s * t, s, t1, t2) ∂μ1 ∂μ1 = ∫⁻ t1, ∫⁻ t2, K (s * t, s, t2, t1) ∂μ1 ∂μ1 :=
    swap2 (G := fun t1 t2 => K (s * t, s, t1, t2)) (by fun_prop)
  simp only [s5]
  have a1 : Measurable fun u => ∫⁻ v, K (s, s * t, u, v) ∂μ1 := meas1 (H := fun q : ℝ × ℝ => K (s, s * t, q.1, q.2)) (by fun_prop)
  have a2 : Measurable fun u => ∫⁻ v, K (s * t, s, v, u) ∂μ1 := meas1 (H := fun q : ℝ × ℝ => K (s * t, s, q.2, q.1)) (by fun_prop)
  rw [← lintegral_add_left a1, ← lintegral_const_mul _ (by fun_prop)]
  refine lintegral_congr fun u => ?_
  rw [← lintegral_add_left (by fun_prop), ← lintegral_const_mul _ (by fun_prop)]
  refine lintegral_congr fun v => ?_
  have hst : s * t ≤ 1 := by nlinarith
  have w : ENNReal.ofReal (s * (1 - s) * (1 - s * t)) = ENNReal.ofReal s * ENNReal.ofReal (1 - s) * ENNReal.ofReal (1 - s * t) := by
    rw [ENNReal.ofReal_mul (by nlinarith), ENNReal.ofReal_mul hs0.le]
  simp only [w, K, H]
  ring

/-- Integral over the four-dimensional unit cube. -/
noncomputable def I4 (f : ℝ × ℝ × ℝ × ℝ → ℝ≥0∞) : ℝ≥0∞ := ∫⁻ x, ∫⁻ y, ∫⁻ z, ∫⁻ w, f (x, y, z, w) ∂μ1 ∂μ1 ∂μ1 ∂μ1

theorem I4_12 {f : ℝ × ℝ × ℝ × ℝ → ℝ≥0∞} (hf : Measurable f) : I4 f = I4 fun q => f (q.2.1, q.1, q.2.2.1, q.2.2.2) :=
  swap2 (G := fun x y => ∫⁻ z, ∫⁻ w, f (x, y, z, w) ∂μ1 ∂μ1)
    (meas2 (H := fun q : (ℝ × ℝ) × ℝ × ℝ => f (q.1.1, q.1.2, q.2.1, q.2.2)) (by fun_prop))

theorem I4_23 {f : ℝ × ℝ × ℝ × ℝ → ℝ≥0∞} (hf : Measurable f) : I4 f = I4 fun q => f (q.1, q.2.2.1, q.2.1, q.2.2.2) :=
  lintegral_congr fun x => swap2 (G := fun y z => ∫⁻ w, f (x, y, z, w) ∂μ1)
    (meas1 (H := fun q : (ℝ × ℝ) × ℝ => f (x, q.1.1, q.1.2, q.2)) (by fun_prop))

theorem I4_34 {f : ℝ × ℝ × ℝ × ℝ → ℝ≥0∞} (hf : Measurable f) : I4 f = I4 fun q => f (q.1, q.2.1, q.2.2.2, q.2.2.1) :=
  lintegral_congr fun x => lintegral_congr fun y => swap2 (G := fun z w => f (x, y, z, w)) (by fun_prop)

theorem I4_add {f g : ℝ × ℝ × ℝ × ℝ → ℝ≥0∞} (hf : Measurable f) : I4 (fun q => f q + g q) = I4 f + I4 g := by
  unfold I4
  rw [← lintegral_add_left]
  · refine lintegral_congr fun x => ?_
    rw [← lintegral_add_left (meas2 (H := fun q : ℝ × ℝ × ℝ => f (x, q.1, q.2.1, q.2.2)) (by fun_prop))]
    refine lintegral_congr fun y => ?_
    rw [← lintegral_add_left (meas1 (H := fun q : ℝ × ℝ => f (x, y, q.1, q.2)) (by fun_prop))]
    exact lintegral_congr fun z => lintegral_add_left (by fun_prop) _
  · exact meas1 (H := fun q : ℝ × ℝ => ∫⁻ z, ∫⁻ w, f (q.1, q.2, z, w) ∂μ1 ∂μ1)
      (meas2 (H := fun q : (ℝ × ℝ) × ℝ × ℝ => f (q.1.1, q.1.2, q.2.1, q.2.2)) (by fun_prop))

theorem I4_congr {f g : ℝ × ℝ × ℝ × ℝ → ℝ≥0∞} (h : ∀ x y z w, 0 < x → x ≤ 1 → 0 < y → y ≤ 1 → 0 < z → z ≤ 1 → 0 < w → w ≤ 1 →
    f (x, y, z, w) = g (x, y, z, w)) : I4 f = I4 g :=
  congr1 fun x h1 h2 => congr1 fun y h3 h4 => congr1 fun z h5 h6 => congr1 fun w h7 h8 => h x y z w h1 h2 h3 h4 h5 h6 h7 h8

/-- Duffy substitution in the last two variables. -/
theorem I4_B34 {f : ℝ × ℝ × ℝ × ℝ → ℝ≥0∞} (hf : Measurable f) :
    I4 f = I4 fun q => ENNReal.ofReal q.2.2.1 *
      (f (q.1, q.2.1, q.2.2.1, q.2.2.1 * q.2.2.2) + f (q.1, q.2.1, q.2.2.1 * q.2.2.2, q.2.2.1)) :=
  lintegral_congr fun x => lintegral_congr fun y => duffyB (G := fun z w => f (x, y, z, w)) (by fun_prop)

/-- Relative coordinates in the last two variables. -/
theorem I4_A34 {f : ℝ × ℝ × ℝ × ℝ → ℝ≥0∞} (hf : Measurable f) :
    I4 f = I4 fun q => ENNReal.ofReal (1 - q.2.2.1) *
      (f (q.1, q.2.1, q.2.2.2 * (1 - q.2.2.1), q.2.2.2 * (1 - q.2.2.1) + q.2.2.1) +
       f (q.1, q.2.1, q.2.2.2 * (1 - q.2.2.1) + q.2.2.1, q.2.2.2 * (1 - q.2.2.1))) :=
  lintegral_congr fun x => lintegral_congr fun y => duffyA (g := fun z w => f (x, y, z, w)) (by fun_prop)

theorem I4_1 (f : ℝ × ℝ × ℝ × ℝ → ℝ≥0∞) : I4 f = I4 fun q => f (1 - q.1, q.2.1, q.2.2.1, q.2.2.2) :=
  (lint_reflect fun x => ∫⁻ y, ∫⁻ z, ∫⁻ w, f (x, y, z, w) ∂μ1 ∂μ1 ∂μ1).symm

theorem I4_13 {f : ℝ × ℝ × ℝ × ℝ → ℝ≥0∞} (hf : Measurable f) : I4 f = I4 fun q => f (q.2.2.1, q.2.1, q.1, q.2.2.2) := by
  rw [I4_12 hf, I4_23 (by fun_prop), I4_12 (by fun_prop)]

theorem I4_24 {f : ℝ × ℝ × ℝ × ℝ → ℝ≥0∞} (hf : Measurable f) : I4 f = I4 fun q => f (q.1, q.2.2.2, q.2.2.1, q.2.1) := by
  rw [I4_23 hf, I4_34 (by fun_prop), I4_23 (by fun_prop)]

theorem I4_14 {f : ℝ × ℝ × ℝ × ℝ → ℝ≥0∞} (hf : Measurable f) : I4 f = I4 fun q => f (q.2.2.2, q.2.1, q.2.2.1, q.1) := by
  rw [I4_12 hf, I4_24 (by fun_prop), I4_12 (by fun_prop)]

/-- Duffy substitution in the first two variables. -/
theorem I4_B12 {f : ℝ × ℝ × ℝ × ℝ → ℝ≥0∞} (hf : Measurable f) :
    I4 f = I4 fun q => ENNReal.ofReal q.1 *
      (f (q.1, q.1 * q.2.1, q.2.2.1, q.2.2.2) + f (q.1 * q.2.1, q.1, q.2.2.1, q.2.2.2)) := by
  rw [I4_13 hf, I4_24 (by fun_prop), I4_B34 (by fun_prop), I4_13 (by fun_prop), I4_24 (by fun_prop)]

/-- Duffy substitution in the variables 1 and 3. -/
theorem I4_B13 {f : ℝ × ℝ × ℝ × ℝ → ℝ≥0∞} (hf : Measurable f) :
    I4 f = I4 fun q => ENNReal.ofReal q.1 *
      (f (q.1, q.2.1, q.1 * q.2.2.1, q.2.2.2) + f (q.1 * q.2.2.1, q.2.1, q.1, q.2.2.2)) := by
  rw [I4_23 hf, I4_B12 (by fun_prop), I4_23 (by fun_prop)]

/-- Common vertex. -/
theorem duffy4 (hF : Measurable F) :
    I4 (fun q => F ((q.1, q.2.1), (q.2.2.1, q.2.2.2))) =
    I4 fun q => ENNReal.ofReal (q.1 ^ 3) *
      (F ((q.1, q.1 * q.2.1), (q.1 * q.2.2.1, q.1 * q.2.2.2)) + F ((q.1 * q.2.1, q.1), (q.1 * q.2.2.1, q.1 * q.2.2.2)) +
       F ((q.1 * q.2.2.1, q.1 * q.2.2.2), (q.1, q.1 * q.2.1)) + F ((q.1 * q.2.2.1, q.1 * q.2.2.2), (q.1 * q.2.1, q.1))) := by
  rw [I4_B34 (by fun_prop), I4_B12 (by fun_prop), I4_B13 (by fun_prop)]
  simp only
  let G1 : ℝ × ℝ × ℝ × ℝ → ℝ≥0∞ := fun q => ENNReal.ofReal q.1 ^ 3 *
      (F ((q.1, q.1 * q.2.1), (q.1 * q.2.2.1, q.1 * q.2.2.2)) + F ((q.1 * q.2.1, q.1), (q.1 * q.2.2.1, q.1 * q.2.2.2)))
  let G2 : ℝ × ℝ × ℝ × ℝ → ℝ≥0∞ := fun q => ENNReal.ofReal q.1 ^ 3 *
      (F ((q.1 * q.2.2.1, q.1 * q.2.2.2), (q.1, q.1 * q.2.1)) + F ((q.1 * q.2.2.1, q.1 * q.2.2.2), (q.1 * q.2.1, q.1)))
  have m1 : Measurable G1 := by unfold G1; fun_prop
  have m2 : Measurable G2 := by unfold G2; fun_prop
  have e : ∀ x : ℝ, 0 < x → ENNReal.ofReal (x ^ 3) = ENNReal.ofReal x ^ 3 := fun x hx => ENNReal.ofReal_pow hx.le 3
  have r : I4 G1 + I4 G2 = I4 fun q => ENNReal.ofReal (q.1 ^ 3) *
      (F ((q.1, q.1 * q.2.1), (q.1 * q.2.2.1, q.1 * q.2.2.2)) + F ((q.1 * q.2.1, q.1), (q.1 * q.2.2.1, q.1 * q.2.2.2)) +
       F ((q.1 * q.2.2.1, q.1 * q.2.2.2), (q.1, q.1 * q.2.1)) + F ((q.1 * q.2.2.1, q.1 * q.2.2.2), (q.1 * q.2.1, q.1))) := by
    rw [← I4_add m1]
    refine I4_congr fun x y z w hx _ _ _ _ _ _ _ => ?_
    simp only [G1, G2, e x hx]
    ring
  rw [← r, I4_B34 m1, I4_B34 m2]
  -- bring the second part to the order of variables of the left hand side
  rw [I4_24 (f := fun q => ENNReal.ofReal q.2.2.1 *
      (G2 (q.1, q.2.1, q.2.2.1, q.2.2.1 * q.2.2.2) + G2 (q.1, q.2.1, q.2.2.1 * q.2.2.2, q.2.2.1))) (by fun_prop)]
  rw [← I4_add (by fun_prop)]
  refine I4_congr fun x y z w hx _ hy _ hz _ hw _ => ?_
  have e1 : ENNReal.ofReal (x * z) = ENNReal.ofReal x * ENNReal.ofReal z := ENNReal.ofReal_mul hx.le
  simp only [G1, G2, e1, mul_assoc]
  ring

theorem I4_B23 {f : ℝ × ℝ × ℝ × ℝ → ℝ≥0∞} (hf : Measurable f) :
    I4 f = I4 fun q => ENNReal.ofReal q.2.1 *
      (f (q.1, q.2.1, q.2.1 * q.2.2.1, q.2.2.2) + f (q.1, q.2.1 * q.2.2.1, q.2.1, q.2.2.2)) := by
  rw [I4_12 hf, I4_B13 (by fun_prop), I4_12 (by fun_prop)]

theorem I4_B24 {f : ℝ × ℝ × ℝ × ℝ → ℝ≥0∞} (hf : Measurable f) :
    I4 f = I4 fun q => ENNReal.ofReal q.2.1 *
      (f (q.1, q.2.1, q.2.2.1, q.2.1 * q.2.2.2) + f (q.1, q.2.1 * q.2.2.2, q.2.2.1, q.2.1)) := by
  rw [I4_34 hf, I4_B23 (by fun_prop), I4_34 (by fun_prop)]

/-- The cube of the last three variables as the union of three pyramids. -/
theorem I4_C {g : ℝ × ℝ × ℝ × ℝ → ℝ≥0∞} (hg : Measurable g) :
    I4 g = I4 (fun q => ENNReal.ofReal q.2.1 ^ 2 * (g (q.1, q.2.1, q.2.1 * q.2.2.1, q.2.1 * q.2.2.2) +
      g (q.1, q.2.1 * q.2.2.1, q.2.1, q.2.1 * q.2.2.2))) +
      I4 fun q => ENNReal.ofReal q.2.1 ^ 2 * g (q.1, q.2.1 * q.2.2.1, q.2.1 * q.2.2.2, q.2.1) := by
  rw [I4_B23 hg, I4_B24 (by fun_prop)]
  rw [I4_B34 (f := fun q => ENNReal.ofReal q.2.1 ^ 2 * g (q.1, q.2.1 * q.2.2.1, q.2.1 * q.2.2.2, q.2.1)) (by fun_prop)]
  rw [I4_34 (f := fun q => ENNReal.ofReal q.2.2.1 *
      (ENNReal.ofReal q.2.1 ^ 2 * g (q.1, q.2.1 * q.2.2.1, q.2.1 * (q.2.2.1 * q.2.2.2), q.2.1) +
       ENNReal.ofReal q.2.1 ^ 2 * g (q.1, q.2.1 * (q.2.2.1 * q.2.2.2), q.2.1 * q.2.2.1, q.2.1))) (by fun_prop)]
  rw [← I4_add (by fun_prop)]
  refine I4_congr fun x y z w hx _ hy _ hz _ hw _ => ?_
  have e1 : ENNReal.ofReal (y * w) = ENNReal.ofReal y * ENNReal.ofReal w := ENNReal.ofReal_mul hy.le
  have e2 : y * w * z = y * (w * z) := by ring
  simp only [e1, e2]
  ring

/-- Common edge. -/
theorem duffy3 (hF : Measurable F) :
    I4 (fun q => F ((q.1, q.2.1), (q.2.2.1, q.2.2.2))) =
    I4 fun q => (let t1 := q.1 * (1 - q.2.1)
      let t2 := (1 - q.1) * (1 - q.2.1)
      let e1 := q.2.1 * q.2.2.1
      let e2 := q.2.1 * q.2.2.2
      let t3 := q.1 * (1 - e1)
      let t4 := (1 - q.1) * (1 - e1)
      ENNReal.ofReal (q.2.1 ^ 2 * (1 - q.2.1)) * (F ((t1, e1), (t2, e2)) + F ((1 - t1, e1), (1 - t2, e2))) +
      ENNReal.ofReal (q.2.1 ^ 2 * (1 - e1)) * (F ((t3, q.2.1), (t4, e2)) + F ((1 - t3, q.2.1), (1 - t4, e2)) +
        F ((t4, e2), (t3, q.2.1)) + F ((1 - t4, e2), (1 - t3, q.2.1)))) := by
  let G : ℝ × ℝ × ℝ × ℝ → ℝ≥0∞ := fun q => ENNReal.ofReal (1 - q.2.1) *
    (F ((q.1 * (1 - q.2.1), q.2.2.1), ((1 - q.1) * (1 - q.2.1), q.2.2.2)) +
     F ((1 - q.1 * (1 - q.2.1), q.2.2.1), (1 - (1 - q.1) * (1 - q.2.1), q.2.2.2)))
  have hG : Measurable G := by unfold G; fun_prop
  have key : I4 (fun q => F ((q.1, q.2.1), (q.2.2.1, q.2.2.2))) = I4 G := by
    let G1 : ℝ × ℝ × ℝ × ℝ → ℝ≥0∞ := fun q => ENNReal.ofReal (1 - q.2.1) *
      F ((q.1 * (1 - q.2.1), q.2.2.1), ((1 - q.1) * (1 - q.2.1), q.2.2.2))
    let G2 : ℝ × ℝ × ℝ × ℝ → ℝ≥0∞ := fun q => ENNReal.ofReal (1 - q.2.1) *
      F ((1 - q.1 * (1 - q.2.1), q.2.2.1), (1 - (1 - q.1) * (1 - q.2.1), q.2.2.2))
    have m1 : Measurable G1 := by unfold G1; fun_prop
    have m2 : Measurable G2 := by unfold G2; fun_prop
    have r : I4 G = I4 G1 + I4 G2 := by
      rw [← I4_add m1]
      refine I4_congr fun x y z w _ _ _ _ _ _ _ _ => ?_
      simp only [G, G1, G2]
      ring
    rw [r, I4_1 G2, ← I4_add m1]
    -- order of the variables: y, b, x, a ; reflect y ; then a, b, x, y
    rw [I4_13 (by fun_prop), I4_1, I4_14 (by fun_prop), I4_A34 (by fun_prop)]
    -- then t, z, a, b
    rw [I4_24 (by fun_prop), I4_12 (by fun_prop), I4_34 (by fun_prop), I4_23 (by fun_prop), I4_34 (by fun_prop), I4_23 (by fun_prop)]
    refine I4_congr fun x y z w _ _ _ _ _ _ _ _ => ?_
    simp only [G1, G2]
    ring_nf
  rw [key, I4_C hG]
  rw [I4_1 fun q => ENNReal.ofReal q.2.1 ^ 2 * G (q.1, q.2.1 * q.2.2.1, q.2.1 * q.2.2.2, q.2.1)]
  rw [← I4_add (by fun_prop)]
  refine I4_congr fun x y z w hx _ hy _ hz _ hw _ => ?_
  have e1 : ∀ c, ENNReal.ofReal (y ^ 2 * c) = ENNReal.ofReal y ^ 2 * ENNReal.ofReal c := fun c => by
    rw [ENNReal.ofReal_mul (by positivity), ENNReal.ofReal_pow hy.le]
  simp only [G, e1, _root_.sub_sub_cancel]
  ring

end Duffy
end Bembel
