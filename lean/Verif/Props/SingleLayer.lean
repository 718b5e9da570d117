import Verif.Lemmas.Energy
import Verif.Lemmas.Galerkin
import Verif.Spec.SingleLayer
import Verif.Props.AllEntries
import Verif.Props.WellPosed
/-! # C91: the system of the single layer operator is positive definite -/

namespace Bembel.Props
open Finset Mesh H2 Spec Util Duffy SuperSpace MeasureTheory FunctionEval
open scoped ContDiff

namespace SingleLayer
open Bembel.Singular

/-- An inner point of an element is not a point of any other element. -/
theorem interior_injective (near : V3 → V3 → Bool) (corner : Nat → Nat → V3) (P M : Nat) (hP : 0 < P) (t : Mesh.Tree ℝ)
    (ht : initElementTree near corner P M = some t) (geo : Nat → ℝ × ℝ → V3 × V3 × V3) (hemb : Embedded corner P geo)
    (a b : Addr) (ha : IsNode P M a) (hb : IsNode P M b) (s r : ℝ × ℝ) (s1 : 0 < s.1) (s2 : s.1 < 1) (s3 : 0 < s.2) (s4 : s.2 < 1)
    (hr : ClosedSquare r) (h : (map2surface t geo a s 1).f = (map2surface t geo b r 1).f) : a = b ∧ s = r := by
  have hs : ClosedSquare s := ⟨s1.le, s2.le, s3.le, s4.le⟩
  obtain ⟨a1, a2, a3, a4⟩ := SpaceExact.place near corner P M hP t ht a ha
  obtain ⟨b1, b2, b3, b4⟩ := SpaceExact.place near corner P M hP t ht b hb
  obtain ⟨n1, n2⟩ := node_square near corner P M hP t ht M le_rfl a ha s hs
  obtain ⟨m1, m2⟩ := node_square near corner P M hP t ht M le_rfl b hb r hr
  obtain ⟨t', k1, k2, -⟩ := tree_facts (K := ℝ) near corner P M hP
  obtain rfl : t = t' := Option.some.inj (ht.symm.trans k1)
  have hh : ∀ a, IsNode P M a → getH t a = 1 / 2 ^ M := fun a ha => by
    obtain ⟨-, e, -⟩ := k2 M le_rfl a (mem_leaves.2 ha)
    unfold getH; rw [e, ha.2.1]
  have p0 : (0 : ℝ) < 2 ^ M := by positivity
  have xa : ((posX a.2 : Nat) : ℝ) + 1 ≤ 2 ^ M := by exact_mod_cast a3
  have ya : ((posY a.2 : Nat) : ℝ) + 1 ≤ 2 ^ M := by exact_mod_cast a4
  have in1 : ∀ (X : Nat) (s : ℝ), (X : ℝ) + 1 ≤ 2 ^ M → 0 < s → s < 1 → 0 < (X : ℝ) / 2 ^ M + 1 / 2 ^ M * s ∧ (X : ℝ) / 2 ^ M + 1 / 2 ^ M * s < 1 := by
    intro X s hX h0 h1
    refine ⟨by positivity, ?_⟩
    rw [one_div_mul_eq_div, ← add_div, div_lt_one p0]; linarith
  have ix := in1 _ _ xa s1 s2
  have iy := in1 _ _ ya s3 s4
  have grid : ∀ (X Y : Nat) (s r : ℝ), 0 < s → s < 1 → 0 ≤ r → r ≤ 1 → (X : ℝ) / 2 ^ M + 1 / 2 ^ M * s = (Y : ℝ) / 2 ^ M + 1 / 2 ^ M * r → X = Y ∧ s = r := by
    intro X Y s r h0 h1 h2 h3 e
    rw [one_div_mul_eq_div, one_div_mul_eq_div, ← add_div, ← add_div, div_left_inj' p0.ne'] at e
    have u1 : (X : ℝ) < Y + 1 := by linarith
    have u2 : (Y : ℝ) < X + 1 := by linarith
    have v1 : X < Y + 1 := by exact_mod_cast u1
    have v2 : Y < X + 1 := by exact_mod_cast u2
    obtain rfl : X = Y := by omega
    exact ⟨rfl, by linarith⟩
  simp only [map2surface] at h
  have edge : ∀ i < 4, ∀ x : ℝ, ((t.llc a).1 + getH t a * s.1, (t.llc a).2 + getH t a * s.2) ≠ edgePoint i x := by
    intro i hi x e
    rw [a2, hh a ha] at e
    unfold edgePoint at e
    have e1 := congrArg Prod.fst e
    have e2 := congrArg Prod.snd e
    split_ifs at e1 e2 <;> simp only at e1 e2 <;> linarith [ix.1, ix.2, iy.1, iy.2]
  rcases hemb _ n1 _ m1 _ _ n2 m2 h with ⟨e1, e2⟩ | ⟨-, i, hi, -, -, x, -, -, e, -⟩ | ⟨i, hi, -, -, e, -⟩
  · rw [a2, b2, hh a ha, hh b hb] at e2
    obtain ⟨g1, g2⟩ := grid _ _ _ _ s1 s2 hr.1 hr.2.1 (congrArg Prod.fst e2)
    obtain ⟨g3, g4⟩ := grid _ _ _ _ s3 s4 hr.2.2.1 hr.2.2.2 (congrArg Prod.snd e2)
    refine ⟨Prod.ext (by rw [← a1, ← b1, e1]) ?_, Prod.ext g2 g4⟩
    exact pos_inj _ _ (ha.2.1.trans hb.2.1.symm) ha.2.2 hb.2.2 g1 g3
  · exact absurd e (edge i hi x)
  · exact absurd e (edge i hi 0)

section
variable (near : V3 → V3 → Bool) (corner : Nat → Nat → V3) (P M : Nat) (hP : 0 < P) (hM : 1 ≤ M) (hc : ConformingPatches near corner P)
    (ho : OrientedPatches corner P) (geo : Nat → ℝ × ℝ → V3 × V3 × V3) (hreg : RegularPatches P geo) (hsm : SmoothSurface P geo)
    (hw : Watertight corner P fun p s => (geo p s).1) (hemb : Embedded corner P geo) (hcusp : NoCusps P geo)
    (t : Mesh.Tree ℝ) (ht : initElementTree near corner P M = some t)
include hP hM hc ho hreg hsm hw hemb hcusp ht

theorem pair_facts (p : Nat) (jr jk : Nat → ℝ) (a b : Addr) (ha : IsNode P M a) (hb : IsNode P M b) (k l : Nat) (hk : k < (p + 1) * (p + 1))
    (hl : l < (p + 1) * (p + 1)) :
    let F := pairIntegrand t Operator.laplaceSL (map2surface t geo) p M jr jk a b k l
    Integrable F μ4 ∧ exactEntry t Operator.laplaceSL (map2surface t geo) p M jr jk a b k l = ∫ x, F x ∂μ4 ∧
    ∀ x ∈ Cube, F x = getH t a * getH t b * (shape p k x.1 * shape p l x.2 *
      (Kernel.laplace (elementPoint t geo a x.1).f (elementPoint t geo b x.2).f * ‖cross3 (elementPoint t geo a x.1).dx (elementPoint t geo a x.1).dy‖ *
        ‖cross3 (elementPoint t geo b x.2).dx (elementPoint t geo b x.2).dy‖)) := by
  intro F
  obtain ⟨es, hes⟩ := solver_exists
  obtain ⟨t', h1, B, h2, -⟩ := C24_balls near corner P M hP hc (fun p s => (geo p s).1) hw (fun _ => 0) (fun _ => ⟨0, 0⟩)
  obtain rfl : t = t' := Option.some.inj (ht.symm.trans h1)
  obtain ⟨C, hC⟩ := (C89_operators es hes 0).1 near corner P M hP hM hc ho geo hreg hsm hw hemb hcusp t ht _ _ B h2 p 0
  have hvd : Operator.laplaceSL.vd = 1 := rfl
  have int : Integrable F μ4 := (hC a b ha hb jr jk).1 k (by rw [hvd]; omega) l (by rw [hvd]; omega)
  refine ⟨int, integral4_eq _ int, fun x hx => ?_⟩
  have := Props.Singular.integrand_density Operator.laplaceSL valueT (C52_scalar 0).1 (C63_position_only 0).1 near corner P M hP t ht geo hreg p jr jk a b ha hb 0 0 k l
    Nat.one_pos Nat.one_pos hk hl (getH t a) (getH t b) x hx
  rw [Nat.zero_mul, Nat.zero_add, Nat.zero_add] at this
  show Operator.integrand _ _ _ _ _ _ _ _ k l = _
  refine this.trans ?_
  unfold Props.Singular.density
  simp only [Operator.laplaceSL, Finset.sum_range_one, valueT, Algebra.algebraMap_self, RingHom.id_apply]
  rfl

/-- The bilinear form of two functions on two elements. -/
theorem pair_form (p : Nat) (jr jk : Nat → ℝ) (a b : Addr) (ha : IsNode P M a) (hb : IsNode P M b) (qa qb : Nat → ℝ) (w : ℝ) :
    let N := (p + 1) * (p + 1)
    let G : PointPair → ℝ := fun x => (∑ k ∈ range N, qa k * shape p k x.1) * (∑ l ∈ range N, qb l * shape p l x.2) *
      (1 / (4 * Real.pi * ‖(elementPoint t geo a x.1).f - (elementPoint t geo b x.2).f‖)) *
        ‖cross3 (elementPoint t geo a x.1).dx (elementPoint t geo a x.1).dy‖ * ‖cross3 (elementPoint t geo b x.2).dx (elementPoint t geo b x.2).dy‖
    Integrable G μ4 ∧ (Interpol.integral4 fun y z => w * G (y, z)) = w * ∫ x, G x ∂μ4 ∧
    getH t a * getH t b * ∫ x, G x ∂μ4 = ∑ k ∈ range N, ∑ l ∈ range N, qa k * exactEntry t Operator.laplaceSL (map2surface t geo) p M jr jk a b k l * qb l := by
  intro N G
  have facts := fun k hk l hl => pair_facts near corner P M hP hM hc ho geo hreg hsm hw hemb hcusp t ht p jr jk a b ha hb k l hk hl
  simp only at facts
  have h0 : getH t a * getH t b ≠ 0 := by unfold getH; positivity
  have int : Integrable (fun x => ∑ k ∈ range N, ∑ l ∈ range N, qa k * qb l * pairIntegrand t Operator.laplaceSL (map2surface t geo) p M jr jk a b k l x) μ4 :=
    integrable_finsetSum _ fun k hk => integrable_finsetSum _ fun l hl => (facts k (mem_range.1 hk) l (mem_range.1 hl)).1.const_mul _
  have eq : ∀ x ∈ Cube, (∑ k ∈ range N, ∑ l ∈ range N, qa k * qb l * pairIntegrand t Operator.laplaceSL (map2surface t geo) p M jr jk a b k l x) =
      getH t a * getH t b * G x := by
    intro x hx
    simp only [G]
    rw [sum_mul_sum]
    simp only [sum_mul, mul_sum]
    refine sum_congr rfl fun k hk => sum_congr rfl fun l hl => ?_
    rw [(facts k (mem_range.1 hk) l (mem_range.1 hl)).2.2 x hx, Kernel.laplace]
    rw [show 1 / 4 / Real.pi / ‖(elementPoint t geo a x.1).f - (elementPoint t geo b x.2).f‖ =
      1 / (4 * Real.pi * ‖(elementPoint t geo a x.1).f - (elementPoint t geo b x.2).f‖) by rw [div_div, div_div]; ring_nf]
    ring
  have eqae : (fun x => ∑ k ∈ range N, ∑ l ∈ range N, qa k * qb l * pairIntegrand t Operator.laplaceSL (map2surface t geo) p M jr jk a b k l x) =ᵐ[μ4]
      fun x => getH t a * getH t b * G x := by
    filter_upwards [mem_ae] with x hx using eq x hx
  have intG : Integrable G μ4 := by
    have := (int.congr eqae).const_mul (getH t a * getH t b)⁻¹
    refine this.congr (Filter.Eventually.of_forall fun x => ?_)
    simp only []
    rw [← mul_assoc, inv_mul_cancel₀ h0, one_mul]
  refine ⟨intG, ?_, ?_⟩
  · rw [integral4_eq (fun x => w * G x) (intG.const_mul w), integral_const_mul]
  · rw [← integral_const_mul, ← integral_congr_ae eqae, integral_finsetSum _ fun k hk => integrable_finsetSum _ fun l hl =>
      (facts k (mem_range.1 hk) l (mem_range.1 hl)).1.const_mul _]
    refine sum_congr rfl fun k hk => ?_
    rw [integral_finsetSum _ fun l hl => (facts k (mem_range.1 hk) l (mem_range.1 hl)).1.const_mul _]
    refine sum_congr rfl fun l hl => ?_
    rw [integral_const_mul, (facts k (mem_range.1 hk) l (mem_range.1 hl)).2.1]
    ring

omit hP hM hc ho hreg hsm hw hemb hcusp ht in
theorem ae_interior : ∀ᵐ s ∂(μ1.prod μ1), (0 < s.1 ∧ s.1 < 1) ∧ 0 < s.2 ∧ s.2 < 1 := by
  have h : ∀ᵐ x ∂μ1, 0 < x ∧ x < 1 := by
    have e : μ1 = volume.restrict (Set.Ioo 0 1) := Measure.restrict_congr_set Ioo_ae_eq_Ioc.symm
    rw [e]
    filter_upwards [ae_restrict_mem measurableSet_Ioo] with x hx using hx
  have m : MeasurableSet {x : ℝ | 0 < x ∧ x < 1} := measurableSet_Ioo
  refine (Measure.ae_prod_iff_ae_ae ?_).2 ?_
  · exact (m.prod m)
  · filter_upwards [h] with x hx
    filter_upwards [h] with y hy using ⟨hx, hy⟩

omit hP hM hc ho hreg hsm hw hemb hcusp ht in
theorem ae_distinct : ∀ᵐ p ∂((μ1.prod μ1).prod (μ1.prod μ1)), p.1 ≠ p.2 := by
  have : NullSingletonClass μ1 := by unfold μ1; infer_instance
  refine (Measure.ae_prod_iff_ae_ae (measurableSet_eq_fun measurable_fst measurable_snd).compl).2 (Filter.Eventually.of_forall fun x => ?_)
  refine (measure_eq_zero_iff_ae_notMem (s := {x})).1 (by simp) |>.mono fun y hy => ?_
  exact fun h => hy h.symm

omit hP hM hc ho hreg hsm hw hemb hcusp ht in
theorem open_pos (s : ℝ × ℝ) (s1 : 0 < s.1) (s2 : s.1 < 1) (s3 : 0 < s.2) (s4 : s.2 < 1) (U : Set (ℝ × ℝ)) (hU : IsOpen U) (hs : s ∈ U) :
    (μ1.prod μ1) U ≠ 0 := by
  unfold μ1
  rw [Measure.prod_restrict, Measure.restrict_apply hU.measurableSet]
  have o : IsOpen (U ∩ Set.Ioo (0 : ℝ) 1 ×ˢ Set.Ioo (0 : ℝ) 1) := hU.inter (isOpen_Ioo.prod isOpen_Ioo)
  have := o.measure_pos (volume.prod volume) ⟨s, hs, ⟨s1, s2⟩, s3, s4⟩
  exact (this.trans_le (measure_mono (Set.inter_subset_inter_right _ (Set.prod_mono Set.Ioo_subset_Ioc_self Set.Ioo_subset_Ioc_self)))).ne'

/-- The energy of piecewise polynomial densities. -/
theorem definite (p : Nat) (q : Addr → Nat → ℝ) :
    let N := (p + 1) * (p + 1)
    let G : Addr → Addr → PointPair → ℝ := fun a b x => (∑ k ∈ range N, q a k * shape p k x.1) * (∑ l ∈ range N, q b l * shape p l x.2) *
      (1 / (4 * Real.pi * ‖(elementPoint t geo a x.1).f - (elementPoint t geo b x.2).f‖)) *
        ‖cross3 (elementPoint t geo a x.1).dx (elementPoint t geo a x.1).dy‖ * ‖cross3 (elementPoint t geo b x.2).dx (elementPoint t geo b x.2).dy‖
    let E := ∑ a ∈ (leaves P M).toFinset, ∑ b ∈ (leaves P M).toFinset, getH t a * getH t b * ∫ x, G a b x ∂μ4
    0 ≤ E ∧ (E = 0 → ∀ a ∈ leaves P M, ∀ s : ℝ × ℝ, 0 < s.1 → s.1 < 1 → 0 < s.2 → s.2 < 1 → ∑ k ∈ range N, q a k * shape p k s = 0) := by
  intro N G E
  have hsm' : ∀ p, ∃ g : ℝ × ℝ → V3, ContDiff ℝ ∞ g ∧ (p < P → ∀ x, ClosedSquare x → geo p x = (g x, fderiv ℝ g x (1, 0), fderiv ℝ g x (0, 1))) := fun p => by
    by_cases hp : p < P
    · obtain ⟨g, h1, h2⟩ := hsm p hp
      exact ⟨g, h1, fun _ => h2⟩
    · exact ⟨fun _ => 0, contDiff_const, fun h => absurd h hp⟩
  choose g g1 g2 using hsm'
  let y : Addr → ℝ × ℝ → ℝ × ℝ := fun a s => ((t.llc a).1 + getH t a * s.1, (t.llc a).2 + getH t a * s.2)
  have yc : ∀ a, Continuous (y a) := fun a => by fun_prop
  let x : Addr → ℝ × ℝ → V3 := fun a s => g (t.patch a) (y a s)
  have hx : ∀ a, Continuous (x a) := fun a => (g1 _).continuous.comp (yc a)
  let J : Addr → ℝ × ℝ → ℝ := fun a s => ‖cross3 (fderiv ℝ (g (t.patch a)) (y a s) (1, 0)) (fderiv ℝ (g (t.patch a)) (y a s) (0, 1))‖
  have hJ : ∀ a, Continuous (J a) := fun a => by
    have hd : ∀ v : ℝ × ℝ, ContDiff ℝ ∞ fun x => fderiv ℝ (g (t.patch a)) x v := fun v =>
      ((g1 _).fderiv_right (m := ∞) (by norm_cast)).clm_apply contDiff_const
    have hcr : ContDiff ℝ ∞ fun x => cross3 (fderiv ℝ (g (t.patch a)) x (1, 0)) (fderiv ℝ (g (t.patch a)) x (0, 1)) :=
      contDiff_iff_contDiffAt.2 fun x => Interpol.cross_smooth (hd _).contDiffAt (hd _).contDiffAt
    exact (hcr.continuous.comp (yc a)).norm
  let φ : Addr → ℝ × ℝ → ℝ := fun a s => ∑ k ∈ range N, q a k * shape p k s
  have hφ : ∀ a, Continuous (φ a) := fun a => continuous_finsetSum _ fun k _ => continuous_const.mul (Smooth.shape_smooth p k).continuous
  let u : Addr → ℝ × ℝ → ℝ := fun a s => getH t a * φ a s * J a s
  have hu : ∀ a, Continuous (u a) := fun a => (continuous_const.mul (hφ a)).mul (hJ a)
  have pt : ∀ a, IsNode P M a → ∀ s, ClosedSquare s → elementPoint t geo a s = ⟨s, 1, x a s, fderiv ℝ (g (t.patch a)) (y a s) (1, 0), fderiv ℝ (g (t.patch a)) (y a s) (0, 1)⟩ := by
    intro a ha s hs
    obtain ⟨n1, n2⟩ := node_square near corner P M hP t ht M le_rfl a ha s hs
    unfold elementPoint
    simp only
    rw [g2 _ n1 _ n2]
  have mem : ∀ a, a ∈ (leaves P M).toFinset ↔ IsNode P M a := fun a => by rw [List.mem_toFinset, mem_leaves]; rfl
  have eqG : ∀ a b, IsNode P M a → IsNode P M b → ∀ z ∈ Cube, u a z.1 * u b z.2 * (1 / ‖x a z.1 - x b z.2‖) = 4 * Real.pi * (getH t a * getH t b * G a b z) := by
    intro a b ha hb z hz
    obtain ⟨c1, c2⟩ := cube_square hz
    simp only [G]
    rw [pt a ha _ c1, pt b hb _ c2]
    simp only [u, J, φ]
    rw [← one_div_mul_one_div (4 * Real.pi)]
    field_simp [Real.pi_ne_zero]
  have ae : ∀ a b, IsNode P M a → IsNode P M b → (fun z => u a z.1 * u b z.2 * (1 / ‖x a z.1 - x b z.2‖)) =ᵐ[μ4] fun z => 4 * Real.pi * (getH t a * getH t b * G a b z) :=
    fun a b ha hb => by filter_upwards [mem_ae] with z hz using eqG a b ha hb z hz
  have pf := fun a b ha hb => pair_form near corner P M hP hM hc ho geo hreg hsm hw hemb hcusp t ht p (fun _ => 0) (fun _ => 0) a b ha hb (q a) (q b) 1
  simp only at pf
  have inj := interior_injective near corner P M hP t ht geo hemb
  have inj' : ∀ a b, IsNode P M a → IsNode P M b → ∀ s r : ℝ × ℝ, 0 < s.1 → s.1 < 1 → 0 < s.2 → s.2 < 1 → ClosedSquare r → x a s = x b r → a = b ∧ s = r := by
    intro a b ha hb s r s1 s2 s3 s4 hr h
    refine inj a b ha hb s r s1 s2 s3 s4 hr ?_
    have e1 := congrArg SurfPt.f (pt a ha s ⟨s1.le, s2.le, s3.le, s4.le⟩)
    have e2 := congrArg SurfPt.f (pt b hb r hr)
    exact e1.trans (h.trans e2.symm)
  have sq : ∀ᵐ s ∂(μ1.prod μ1), s ∈ (Set.Icc (0 : ℝ) 1 ×ˢ Set.Icc (0 : ℝ) 1) := by
    filter_upwards [ae_interior] with s hs using ⟨⟨hs.1.1.le, hs.1.2.le⟩, hs.2.1.le, hs.2.2.le⟩
  obtain ⟨r1, r2⟩ := Energy.energy_definite (leaves P M).toFinset (μ1.prod μ1) u x hu hx (fun a ha b hb => by
      have h1 : ∀ᵐ p ∂((μ1.prod μ1).prod (μ1.prod μ1)), (0 < p.1.1 ∧ p.1.1 < 1) ∧ 0 < p.1.2 ∧ p.1.2 < 1 :=
        Measure.quasiMeasurePreserving_fst.ae ae_interior
      have h2 : ∀ᵐ p ∂((μ1.prod μ1).prod (μ1.prod μ1)), (0 < p.2.1 ∧ p.2.1 < 1) ∧ 0 < p.2.2 ∧ p.2.2 < 1 :=
        Measure.quasiMeasurePreserving_snd.ae ae_interior
      filter_upwards [h1, h2, ae_distinct] with p p1 p2 p3
      intro h
      exact p3 (inj' a b ((mem a).1 ha) ((mem b).1 hb) _ _ p1.1.1 p1.1.2 p1.2.1 p1.2.2 ⟨p2.1.1.le, p2.1.2.le, p2.2.1.le, p2.2.2.le⟩ h).2)
    (fun a ha b hb => by
      rw [← μ4_eq]
      exact ((((pf a b ((mem a).1 ha) ((mem b).1 hb)).1.const_mul _).const_mul _)).congr (ae a b ((mem a).1 ha) ((mem b).1 hb)).symm)
    _ (isCompact_Icc.prod isCompact_Icc) sq
  have eqE : ∑ a ∈ (leaves P M).toFinset, ∑ b ∈ (leaves P M).toFinset, ∫ p, u a p.1 * u b p.2 * (1 / ‖x a p.1 - x b p.2‖) ∂((μ1.prod μ1).prod (μ1.prod μ1)) =
      4 * Real.pi * E := by
    simp only [E, mul_sum]
    refine sum_congr rfl fun a ha => sum_congr rfl fun b hb => ?_
    rw [← μ4_eq, integral_congr_ae (ae a b ((mem a).1 ha) ((mem b).1 hb)), integral_const_mul, integral_const_mul]
  rw [eqE] at r1 r2
  have pi0 : 0 < 4 * Real.pi := by positivity
  refine ⟨nonneg_of_mul_nonneg_right r1 pi0, fun h0 a ha s s1 s2 s3 s4 => ?_⟩
  have := r2 (by rw [h0, mul_zero]) a ((mem a).2 (mem_leaves.1 ha)) s (fun U hU hs => open_pos s s1 s2 s3 s4 U hU hs) (fun b hb r hr h => by
    obtain ⟨e1, e2⟩ := inj' a b (mem_leaves.1 ha) ((mem b).1 hb) s r s1 s2 s3 s4 ⟨hr.1.1, hr.1.2, hr.2.1, hr.2.2⟩ h.symm
    exact ⟨e1.symm, e2.symm⟩)
  have hs : ClosedSquare s := ⟨s1.le, s2.le, s3.le, s4.le⟩
  have hJ0 : J a s ≠ 0 := by
    obtain ⟨n1, n2⟩ := node_square near corner P M hP t ht M le_rfl a (mem_leaves.1 ha) s hs
    have := hreg _ n1 _ n2
    rw [g2 _ n1 _ n2] at this
    exact norm_ne_zero_iff.2 this
  have hh0 : getH t a ≠ 0 := by unfold getH; positivity
  rcases mul_eq_zero.1 this with h | h
  · exact (mul_eq_zero.1 h).resolve_left hh0
  · exact absurd h hJ0

omit hM hc ho hreg hsm hw hemb hcusp in
theorem sum_ids (F : Nat → ℝ) : ∑ n ∈ range t.nElements, F n = ∑ a ∈ (leaves P M).toFinset, F (t.id a) := by
  obtain ⟨t', j1, j2, els, j3, j4, j5, j6⟩ := C20_uniform_mesh (K := ℝ) near corner P M hP
  obtain rfl : t = t' := Option.some.inj (ht.symm.trans j1)
  obtain ⟨t', k1, -, k3, -, -, k6, -⟩ := tree_facts (K := ℝ) near corner P M hP
  obtain rfl : t = t' := Option.some.inj (ht.symm.trans k1)
  obtain rfl : els = leaves P M := Option.some.inj (j3.symm.trans (elements_eq t P M hP k3 k6))
  have hids : (leaves P M).map t.id = List.range (leaves P M).length := by
    apply List.ext_getElem
    · simp
    · intro n h1 h2
      rw [List.getElem_map, List.getElem_range]
      exact (j6 n _ (List.getElem?_eq_getElem (by simpa using h1))).1
  rw [List.sum_toFinset _ j5, ← sum_listRange, j2, ← j4, ← hids, List.map_map]
  rfl

/-- The bilinear form as a sum of integrals over pairs of elements. -/
theorem form_eq (p : Nat) (T f g : EMat ℝ) :
    let N := (p + 1) * (p + 1)
    let qf := fun a => localCoeff T f t.nElements p 0 (t.id a)
    let qg := fun a => localCoeff T g t.nElements p 0 (t.id a)
    let G : Addr → Addr → PointPair → ℝ := fun a b x => (∑ k ∈ range N, qf a k * shape p k x.1) * (∑ l ∈ range N, qg b l * shape p l x.2) *
      (1 / (4 * Real.pi * ‖(elementPoint t geo a x.1).f - (elementPoint t geo b x.2).f‖)) *
        ‖cross3 (elementPoint t geo a x.1).dx (elementPoint t geo a x.1).dy‖ * ‖cross3 (elementPoint t geo b x.2).dx (elementPoint t geo b x.2).dy‖
    singleLayerForm ⟨t, p, geo, T⟩ (leaves P M) f g =
      ∑ a ∈ (leaves P M).toFinset, ∑ b ∈ (leaves P M).toFinset, getH t a * getH t b * ∫ x, G a b x ∂μ4 := by
  intro N qf qg G
  unfold singleLayerForm doubleIntegral
  rw [List.sum_toFinset _ (leaves_nodup P M)]
  refine congrArg List.sum (List.map_congr_left fun a ha => ?_)
  rw [List.sum_toFinset _ (leaves_nodup P M)]
  refine congrArg List.sum (List.map_congr_left fun b hb => ?_)
  obtain ⟨-, h2, -⟩ := pair_form near corner P M hP hM hc ho geo hreg hsm hw hemb hcusp t ht p (fun _ => 0) (fun _ => 0) a b (mem_leaves.1 ha) (mem_leaves.1 hb)
    (qf a) (qg b) (1 / getH t a * (1 / getH t b))
  have ha0 : getH t a ≠ 0 := by unfold getH; positivity
  have hb0 : getH t b ≠ 0 := by unfold getH; positivity
  rw [show getH t a * getH t b * ∫ x, G a b x ∂μ4 = getH t a ^ 2 * getH t b ^ 2 * (1 / getH t a * (1 / getH t b) * ∫ x, G a b x ∂μ4) by field_simp]
  congr 1
  refine Eq.trans ?_ h2
  unfold Interpol.integral4
  refine Interpol.int_congr _ _ fun x _ => Interpol.int_congr _ _ fun y _ => Interpol.int_congr _ _ fun u _ => Interpol.int_congr _ _ fun v _ => ?_
  simp only [discreteFunction, Algebra.algebraMap_self, RingHom.id_apply, elementPoint, qf, qg]
  ring

/-- The bilinear form in terms of the exact matrices of pairs of elements. -/
theorem form_entries (p : Nat) (jr jk : Nat → ℝ) (T f g : EMat ℝ) :
    singleLayerForm ⟨t, p, geo, T⟩ (leaves P M) f g =
      ∑ a ∈ (leaves P M).toFinset, ∑ b ∈ (leaves P M).toFinset, ∑ k ∈ range ((p + 1) * (p + 1)), ∑ l ∈ range ((p + 1) * (p + 1)),
        localCoeff T f t.nElements p 0 (t.id a) k * exactEntry t Operator.laplaceSL (map2surface t geo) p M jr jk a b k l *
          localCoeff T g t.nElements p 0 (t.id b) l := by
  have e := form_eq near corner P M hP hM hc ho geo hreg hsm hw hemb hcusp t ht p T f g
  simp only at e
  rw [e]
  refine sum_congr rfl fun a ha => sum_congr rfl fun b hb => ?_
  rw [List.mem_toFinset, mem_leaves] at ha hb
  exact (pair_form near corner P M hP hM hc ho geo hreg hsm hw hemb hcusp t ht p jr jk a b ha hb _ _ 1).2.2

omit hP hM hc ho hreg hsm hw hemb hcusp ht in
theorem coeff_expand (T f : EMat ℝ) (nE p n k : Nat) :
    localCoeff T f nE p 0 n k = ∑ c ∈ range T.cols, f.at' c 0 * localCoeff T (unitVec T.cols c) nE p 0 n k := by
  rw [sum_congr rfl fun c hc => by rw [localCoeff_unit _ _ _ _ _ _ _ (mem_range.1 hc)]]
  unfold localCoeff
  exact sum_congr rfl fun c _ => mul_comm _ _

omit hP hM hc ho hreg hsm hw hemb hcusp ht in
/-- A form that is given by the matrices of pairs of elements is bilinear in the degrees of freedom. -/
theorem form_expand_of (op : Operator ℝ) (form : EMat ℝ → EMat ℝ → ℝ) (p : Nat) (T : EMat ℝ)
    (hform : ∀ (jr jk : Nat → ℝ) (f g : EMat ℝ), form f g =
      ∑ a ∈ (leaves P M).toFinset, ∑ b ∈ (leaves P M).toFinset, ∑ k ∈ range ((p + 1) * (p + 1)), ∑ l ∈ range ((p + 1) * (p + 1)),
        localCoeff T f t.nElements p 0 (t.id a) k * exactEntry t op (map2surface t geo) p M jr jk a b k l *
          localCoeff T g t.nElements p 0 (t.id b) l) (f g : EMat ℝ) :
    form f g = ∑ c ∈ range T.cols, f.at' c 0 * ∑ d ∈ range T.cols, form (unitVec T.cols c) (unitVec T.cols d) * g.at' d 0 := by
  simp only [hform (fun _ => 0) (fun _ => 0)]
  simp only [coeff_expand T f, coeff_expand T g, mul_sum, sum_mul]
  -- move the sums over the degrees of freedom to the front
  calc _ = ∑ a ∈ (leaves P M).toFinset, ∑ b ∈ (leaves P M).toFinset, ∑ k ∈ range ((p + 1) * (p + 1)), ∑ c ∈ range T.cols, ∑ d ∈ range T.cols, ∑ l ∈ range ((p + 1) * (p + 1)), _ := by
        refine sum_congr rfl fun a _ => sum_congr rfl fun b _ => sum_congr rfl fun k _ => ?_
        rw [sum_comm]
        refine (sum_congr rfl fun d _ => sum_comm).trans sum_comm
    _ = ∑ c ∈ range T.cols, ∑ d ∈ range T.cols, ∑ a ∈ (leaves P M).toFinset, ∑ b ∈ (leaves P M).toFinset, ∑ k ∈ range ((p + 1) * (p + 1)), ∑ l ∈ range ((p + 1) * (p + 1)), _ := by
        have sw : ∀ {ι : Type} (s : Finset ι) (F : ι → Nat → Nat → ℝ), ∑ x ∈ s, ∑ c ∈ range T.cols, ∑ d ∈ range T.cols, F x c d =
            ∑ c ∈ range T.cols, ∑ d ∈ range T.cols, ∑ x ∈ s, F x c d := fun s F => by
          rw [sum_comm]
          exact sum_congr rfl fun c _ => sum_comm
        rw [sum_congr rfl fun a _ => sum_congr rfl fun b _ => sw _ _, sum_congr rfl fun a _ => sw _ _, sw]
    _ = _ := by
        refine sum_congr rfl fun c _ => sum_congr rfl fun d _ => sum_congr rfl fun a _ => sum_congr rfl fun b _ => sum_congr rfl fun k _ =>
          sum_congr rfl fun l _ => ?_
        ring

theorem form_expand (p : Nat) (T f g : EMat ℝ) :
    let space : Space ℝ := ⟨t, p, geo, T⟩
    singleLayerForm space (leaves P M) f g = ∑ c ∈ range T.cols, f.at' c 0 * ∑ d ∈ range T.cols,
      singleLayerForm space (leaves P M) (unitVec T.cols c) (unitVec T.cols d) * g.at' d 0 :=
  form_expand_of P M geo t Operator.laplaceSL (fun f g => singleLayerForm ⟨t, p, geo, T⟩ (leaves P M) f g) p T
    (fun jr jk f g => form_entries near corner P M hP hM hc ho geo hreg hsm hw hemb hcusp t ht p jr jk T f g) f g

theorem form_symm (p : Nat) (T f g : EMat ℝ) :
    singleLayerForm ⟨t, p, geo, T⟩ (leaves P M) f g = singleLayerForm ⟨t, p, geo, T⟩ (leaves P M) g f := by
  have e := form_eq near corner P M hP hM hc ho geo hreg hsm hw hemb hcusp t ht p T
  simp only at e
  rw [e, e, sum_comm]
  refine sum_congr rfl fun b _ => sum_congr rfl fun a _ => ?_
  rw [mul_comm (getH t a), μ4_eq]
  congr 1
  rw [← integral_prod_swap]
  refine integral_congr_ae (Filter.Eventually.of_forall fun x => ?_)
  simp only [Prod.swap]
  rw [norm_sub_rev]
  ring

theorem form_definite (p : Nat) (T f : EMat ℝ) :
    0 ≤ singleLayerForm ⟨t, p, geo, T⟩ (leaves P M) f f ∧ (singleLayerForm ⟨t, p, geo, T⟩ (leaves P M) f f = 0 → VanishesInside P M ⟨t, p, geo, T⟩ f) := by
  have e := form_eq near corner P M hP hM hc ho geo hreg hsm hw hemb hcusp t ht p T f f
  simp only at e
  rw [e]
  obtain ⟨h1, h2⟩ := definite near corner P M hP hM hc ho geo hreg hsm hw hemb hcusp t ht p fun a => localCoeff T f t.nElements p 0 (t.id a)
  refine ⟨h1, fun h a ha s s1 s2 s3 s4 => ?_⟩
  have := h2 h a (mem_leaves.2 ha) s s1 s2 s3 s4
  simp only [discreteFunction, Algebra.algebraMap_self, RingHom.id_apply]
  rw [this, mul_zero]

omit hM hc ho hreg hsm hw hemb hcusp in
/-- The error of the transformed matrix is bounded by the error of the entries. -/
theorem transform_error_of (op : Operator ℝ) (form : EMat ℝ → EMat ℝ → ℝ) (p : Nat) (T : EMat ℝ) (hT : T.rows = 1 * ((p + 1) * (p + 1) * t.nElements))
    (hform : ∀ (jr jk : Nat → ℝ) (f g : EMat ℝ), form f g =
      ∑ a ∈ (leaves P M).toFinset, ∑ b ∈ (leaves P M).toFinset, ∑ k ∈ range ((p + 1) * (p + 1)), ∑ l ∈ range ((p + 1) * (p + 1)),
        localCoeff T f t.nElements p 0 (t.id a) k * exactEntry t op (map2surface t geo) p M jr jk a b k l *
          localCoeff T g t.nElements p 0 (t.id b) l) :
    ∃ K ≥ 0, ∀ (jr jk : Nat → ℝ) (A : Nat → Nat → ℝ) (ε : ℝ),
      (∀ a b, IsNode P M a → IsNode P M b → ∀ k < (p + 1) * (p + 1), ∀ l < (p + 1) * (p + 1),
        |A ((p + 1) * (p + 1) * t.id a + k) ((p + 1) * (p + 1) * t.id b + l) -
          exactEntry t op (map2surface t geo) p M jr jk a b k l| ≤ ε) →
      ∀ c < T.cols, ∀ d < T.cols, |(∑ r ∈ range T.rows, ∑ k ∈ range T.rows, T.at' r c * A r k * T.at' k d) -
        form (unitVec T.cols c) (unitVec T.cols d)| ≤ K * ε := by
  set N := (p + 1) * (p + 1) with hN
  let K := ∑ c ∈ range T.cols, ∑ d ∈ range T.cols, ∑ a ∈ (leaves P M).toFinset, ∑ b ∈ (leaves P M).toFinset, ∑ k ∈ range N, ∑ l ∈ range N,
    |localCoeff T (unitVec T.cols c) t.nElements p 0 (t.id a) k| * |localCoeff T (unitVec T.cols d) t.nElements p 0 (t.id b) l|
  have hK : ∀ c < T.cols, ∀ d < T.cols, (∑ a ∈ (leaves P M).toFinset, ∑ b ∈ (leaves P M).toFinset, ∑ k ∈ range N, ∑ l ∈ range N,
      |localCoeff T (unitVec T.cols c) t.nElements p 0 (t.id a) k| * |localCoeff T (unitVec T.cols d) t.nElements p 0 (t.id b) l|) ≤ K := fun c hc d hd => by
    have n0 : ∀ c d, 0 ≤ ∑ a ∈ (leaves P M).toFinset, ∑ b ∈ (leaves P M).toFinset, ∑ k ∈ range N, ∑ l ∈ range N,
      |localCoeff T (unitVec T.cols c) t.nElements p 0 (t.id a) k| * |localCoeff T (unitVec T.cols d) t.nElements p 0 (t.id b) l| := fun c d => by positivity
    exact (single_le_sum (f := fun d => ∑ a ∈ (leaves P M).toFinset, ∑ b ∈ (leaves P M).toFinset, ∑ k ∈ range N, ∑ l ∈ range N,
      |localCoeff T (unitVec T.cols c) t.nElements p 0 (t.id a) k| * |localCoeff T (unitVec T.cols d) t.nElements p 0 (t.id b) l|) (fun d _ => n0 c d) (mem_range.2 hd)).trans
      (single_le_sum (f := fun c => ∑ d ∈ range T.cols, ∑ a ∈ (leaves P M).toFinset, ∑ b ∈ (leaves P M).toFinset, ∑ k ∈ range N, ∑ l ∈ range N,
      |localCoeff T (unitVec T.cols c) t.nElements p 0 (t.id a) k| * |localCoeff T (unitVec T.cols d) t.nElements p 0 (t.id b) l|)
        (fun c _ => sum_nonneg fun d _ => n0 c d) (mem_range.2 hc))
  have K0 : 0 ≤ K := by positivity
  refine ⟨K, K0, fun jr jk A ε hA c hcc d hd => ?_⟩
  have split : ∀ F : Nat → ℝ, ∑ r ∈ range T.rows, F r = ∑ a ∈ (leaves P M).toFinset, ∑ k ∈ range N, F (N * t.id a + k) := fun F => by
    rw [hT, long_sum, sum_range_one, sum_ids near corner P M hP t ht fun n => ∑ k ∈ range N, F (0 * (N * t.nElements) + (N * n + k))]
    simp only [Nat.zero_mul, Nat.zero_add]
  have tc : ∀ c < T.cols, ∀ a k, T.at' (N * t.id a + k) c = localCoeff T (unitVec T.cols c) t.nElements p 0 (t.id a) k := fun c hc a k => by
    rw [localCoeff_unit _ _ _ _ _ _ _ hc, Nat.zero_mul, Nat.zero_add]
  have mem : ∀ a ∈ (leaves P M).toFinset, IsNode P M a := fun a ha => by rw [List.mem_toFinset, mem_leaves] at ha; exact ha
  rw [split, hform jr jk, ← sum_sub_distrib]
  have entry : ∀ a ∈ (leaves P M).toFinset, (∑ k ∈ range N, ∑ l ∈ range T.rows, T.at' (N * t.id a + k) c * A (N * t.id a + k) l * T.at' l d) -
      ∑ b ∈ (leaves P M).toFinset, ∑ k ∈ range N, ∑ l ∈ range N, localCoeff T (unitVec T.cols c) t.nElements p 0 (t.id a) k *
        exactEntry t op (map2surface t geo) p M jr jk a b k l * localCoeff T (unitVec T.cols d) t.nElements p 0 (t.id b) l =
      ∑ b ∈ (leaves P M).toFinset, ∑ k ∈ range N, ∑ l ∈ range N, localCoeff T (unitVec T.cols c) t.nElements p 0 (t.id a) k *
        localCoeff T (unitVec T.cols d) t.nElements p 0 (t.id b) l * (A (N * t.id a + k) (N * t.id b + l) - exactEntry t op (map2surface t geo) p M jr jk a b k l) := fun a ha => by
    rw [sum_congr rfl fun k _ => split _, sum_comm, ← sum_sub_distrib]
    refine sum_congr rfl fun b hb => ?_
    rw [← sum_sub_distrib]
    refine sum_congr rfl fun k hk => ?_
    rw [← sum_sub_distrib]
    refine sum_congr rfl fun l hl => ?_
    rw [tc c hcc, tc d hd]
    ring
  rw [sum_congr rfl entry]
  calc _ ≤ ∑ a ∈ (leaves P M).toFinset, ∑ b ∈ (leaves P M).toFinset, ∑ k ∈ range N, ∑ l ∈ range N,
        (|localCoeff T (unitVec T.cols c) t.nElements p 0 (t.id a) k| * |localCoeff T (unitVec T.cols d) t.nElements p 0 (t.id b) l|) * ε := by
        refine (abs_sum_le_sum_abs _ _).trans (sum_le_sum fun a ha => (abs_sum_le_sum_abs _ _).trans (sum_le_sum fun b hb => (abs_sum_le_sum_abs _ _).trans
          (sum_le_sum fun k hk => (abs_sum_le_sum_abs _ _).trans (sum_le_sum fun l hl => ?_))))
        rw [abs_mul, abs_mul]
        exact mul_le_mul_of_nonneg_left (hA a b (mem a ha) (mem b hb) k (mem_range.1 hk) l (mem_range.1 hl)) (by positivity)
    _ ≤ K * ε := by
        simp only [← sum_mul]
        rcases Nat.eq_zero_or_pos T.cols with h | h
        · omega
        refine mul_le_mul_of_nonneg_right (hK c hcc d hd) ?_
        have n0 : IsNode P M (0, List.replicate M 0) := ⟨hP, by simp, fun x hx => by rw [List.eq_of_mem_replicate hx]; norm_num⟩
        exact (abs_nonneg _).trans (hA _ _ n0 n0 0 (by positivity) 0 (by positivity))

/-- The computed integrals of the pairs of elements converge. -/
theorem pair_rate_of (op : Operator ℝ) (hvd : op.vd = 1) (es : EigenSolver) (hop : AccurateOnSurfaces es op) (junkB : Nat → V3) (B0 B : Addr → Ball V3)
    (hB : computeElementEnclosings t (fun p s => (geo p s).1) junkB B0 = some B) (p : Nat)
    (hdeg : ∀ a b, IsNode P M a → IsNode P M b → pairDegree op.order p (compareElements t B a b).2 M < 50) :
    ∃ C : Nat → ℝ, (∀ κ, 0 ≤ C κ) ∧ ∀ (i : Nat) (GS : Nat → Cubature ℝ), (∀ k < 50, ∃ order j, i ≤ j ∧ j ≤ order ∧ GS k = gaussSquare es order j) → ∀ (ffq : Addr → Nat → SurfPt),
      (∀ a, IsNode P M a → ∀ k < (GS (farfieldDegree op.order p).toNat).size, ffq a k =
        map2surface t geo a ((GS (farfieldDegree op.order p).toNat).xi k) (getH t a * (GS (farfieldDegree op.order p).toNat).w k)) →
      ∀ (jr jk : Nat → ℝ),
      ∃ v : Addr → Addr → Nat → Nat → ℝ, ∀ a b, IsNode P M a → IsNode P M b →
        evaluateBilinearForm op.order p t B (op.integrand jr jk p M) (map2surface t geo) GS ffq a b = some (v a b) ∧
        ∀ κ, ∀ k < (p + 1) * (p + 1), ∀ l < (p + 1) * (p + 1),
          |v a b k l - exactEntry t op (map2surface t geo) p M jr jk a b k l| ≤ C κ / ((i : ℝ) + 1) ^ κ := by
  have hC := fun κ => hop near corner P M hP hM hc ho geo hreg hsm hw hemb hcusp t ht _ _ B hB p κ
  choose C hC using hC
  rw [hvd, one_mul] at hC
  refine ⟨fun κ => max (C κ) 0, fun κ => le_max_right _ _, fun i GS hGS ffq hff jr jk => ?_⟩
  have i0 : (0 : ℝ) < (i : ℝ) + 1 := by positivity
  have ex : ∀ a b, ∃ v, IsNode P M a → IsNode P M b → evaluateBilinearForm op.order p t B (op.integrand jr jk p M) (map2surface t geo) GS ffq a b = some v ∧
      ∀ κ, ∀ k < (p + 1) * (p + 1), ∀ l < (p + 1) * (p + 1), |v k l - exactEntry t op (map2surface t geo) p M jr jk a b k l| ≤ max (C κ) 0 / ((i : ℝ) + 1) ^ κ := fun a b => by
    by_cases ha : IsNode P M a
    · by_cases hb : IsNode P M b
      · have hd := hdeg a b ha hb
        obtain ⟨order, j, h1, h2, h3⟩ := hGS (pairDegree op.order p (compareElements t B a b).2 M).toNat (by omega)
        have pw := fun κ => (hC κ a b ha hb jr jk).2 GS ffq hff hd order j h2 h3
        obtain ⟨v, v1, -⟩ := pw 0
        refine ⟨v, fun _ _ => ⟨v1, fun κ k hk l hl => ?_⟩⟩
        obtain ⟨w, w1, w2⟩ := pw κ
        obtain rfl : v = w := Option.some.inj (v1.symm.trans w1)
        refine (w2 k hk l hl).trans ?_
        have : ((i : ℝ) + 1) ^ κ ≤ ((j : ℝ) + 1) ^ κ := pow_le_pow_left₀ i0.le (add_le_add_left (Nat.cast_le.2 h1) 1) κ
        exact (div_le_div_of_nonneg_right (le_max_left _ _) (by positivity)).trans (div_le_div_of_nonneg_left (le_max_right _ _) (by positivity) this)
      · exact ⟨fun _ _ => 0, fun _ h => absurd h hb⟩
    · exact ⟨fun _ _ => 0, fun h => absurd h ha⟩
  choose v hv using ex
  exact ⟨v, hv⟩

/-- The computed matrix converges to the exact matrix. -/
theorem matrix_error_of (op : Operator ℝ) (hvd : op.vd = 1) (form : EMat ℝ → EMat ℝ → ℝ) (es : EigenSolver) (hop : AccurateOnSurfaces es op) (junkB : Nat → V3) (B0 B : Addr → Ball V3)
    (hB : computeElementEnclosings t (fun p s => (geo p s).1) junkB B0 = some B) (p : Nat)
    (hdeg : ∀ a b, IsNode P M a → IsNode P M b → pairDegree op.order p (compareElements t B a b).2 M < 50)
    (T : EMat ℝ) (hT : T.rows = 1 * ((p + 1) * (p + 1) * t.nElements))
    (hform : ∀ (jr jk : Nat → ℝ) (f g : EMat ℝ), form f g =
      ∑ a ∈ (leaves P M).toFinset, ∑ b ∈ (leaves P M).toFinset, ∑ k ∈ range ((p + 1) * (p + 1)), ∑ l ∈ range ((p + 1) * (p + 1)),
        localCoeff T f t.nElements p 0 (t.id a) k * exactEntry t op (map2surface t geo) p M jr jk a b k l *
          localCoeff T g t.nElements p 0 (t.id b) l) :
    ∃ C : Nat → ℝ, (∀ κ, 0 ≤ C κ) ∧ ∀ (i : Nat) (GS : Nat → Cubature ℝ), (∀ k < 50, ∃ order j, i ≤ j ∧ j ≤ order ∧ GS k = gaussSquare es order j) → ∀ (ffq : Addr → Nat → SurfPt),
      (∀ a, IsNode P M a → ∀ k < (GS (farfieldDegree op.order p).toNat).size, ffq a k =
        map2surface t geo a ((GS (farfieldDegree op.order p).toNat).xi k) (getH t a * (GS (farfieldDegree op.order p).toNat).w k)) →
      ∀ (jr jk : Nat → ℝ),
      ∃ L, Dense.tasks t 1 ((p + 1) * (p + 1)) (evaluateBilinearForm op.order p t B (op.integrand jr jk p M)
          (map2surface t geo) GS ffq) = some L ∧
        ∀ ws, ws.Perm L.flatten → ∀ junk : Nat → Nat → ℝ, ∃ S, Dense.compute junk t 1 ((p + 1) * (p + 1)) ws T = some S ∧ S.rows = T.cols ∧ S.cols = T.cols ∧
          ∀ κ, ∀ c < T.cols, ∀ d < T.cols,
            |S.at' c d - form (unitVec T.cols c) (unitVec T.cols d)| ≤ C κ / ((i : ℝ) + 1) ^ κ := by
  obtain ⟨C, C0, hC⟩ := pair_rate_of near corner P M hP hM hc ho geo hreg hsm hw hemb hcusp t ht op hvd es hop junkB B0 B hB p hdeg
  obtain ⟨K, K0, hK⟩ := transform_error_of near corner P M hP geo t ht op form p T hT hform
  refine ⟨fun κ => K * C κ, fun κ => mul_nonneg K0 (C0 κ), fun i GS hGS ffq hff jr jk => ?_⟩
  obtain ⟨v, hv⟩ := hC i GS hGS ffq hff jr jk
  obtain ⟨t', k1, k2, k3, -, -, k6, -⟩ := tree_facts (K := ℝ) near corner P M hP
  obtain rfl : t = t' := Option.some.inj (ht.symm.trans k1)
  obtain ⟨t', s1, s2⟩ := C48_schedule (R := ℝ) (K := ℝ) near corner P M hP 1 ((p + 1) * (p + 1))
  obtain rfl : t = t' := Option.some.inj (ht.symm.trans s1)
  obtain ⟨L, l1, -, -, l2⟩ := s2 _ v fun a b ha hb => (hv a b ha hb).1
  refine ⟨L, l1, fun ws hws junk => ?_⟩
  obtain ⟨A, a1, a2, a3, a4, a5⟩ := l2 ws hws junk
  obtain ⟨S, s1, s2, s3, s4⟩ := a5 T (by rw [hT, k3]; ring)
  refine ⟨S, s1, s2, s3, fun κ c hcc d hd => ?_⟩
  rw [s4]
  refine (hK jr jk A.at' _ (fun a b ha hb k hk l hl => ?_) c hcc d hd).trans_eq (by rw [mul_div_assoc])
  have := a4 a b ha hb 0 Nat.one_pos 0 Nat.one_pos k hk l hl
  simp only [Nat.zero_mul, Nat.zero_add] at this
  rw [this]
  exact (hv a b ha hb).2 κ k hk l hl

/-- The error of the transformed matrix is bounded by the error of the entries. -/
theorem transform_error (p : Nat) (T : EMat ℝ) (hT : T.rows = 1 * ((p + 1) * (p + 1) * t.nElements)) :
    ∃ K ≥ 0, ∀ (jr jk : Nat → ℝ) (A : Nat → Nat → ℝ) (ε : ℝ),
      (∀ a b, IsNode P M a → IsNode P M b → ∀ k < (p + 1) * (p + 1), ∀ l < (p + 1) * (p + 1),
        |A ((p + 1) * (p + 1) * t.id a + k) ((p + 1) * (p + 1) * t.id b + l) -
          exactEntry t Operator.laplaceSL (map2surface t geo) p M jr jk a b k l| ≤ ε) →
      ∀ c < T.cols, ∀ d < T.cols, |(∑ r ∈ range T.rows, ∑ k ∈ range T.rows, T.at' r c * A r k * T.at' k d) -
        singleLayerForm ⟨t, p, geo, T⟩ (leaves P M) (unitVec T.cols c) (unitVec T.cols d)| ≤ K * ε :=
  transform_error_of near corner P M hP geo t ht Operator.laplaceSL (fun f g => singleLayerForm ⟨t, p, geo, T⟩ (leaves P M) f g) p T hT
    fun jr jk f g => form_entries near corner P M hP hM hc ho geo hreg hsm hw hemb hcusp t ht p jr jk T f g

/-- The computed integrals of the pairs of elements converge. -/
theorem pair_rate (es : EigenSolver) (hes : SolverCorrect es) (junkB : Nat → V3) (B0 B : Addr → Ball V3)
    (hB : computeElementEnclosings t (fun p s => (geo p s).1) junkB B0 = some B) (p : Nat)
    (hdeg : ∀ a b, IsNode P M a → IsNode P M b → pairDegree Operator.laplaceSL.order p (compareElements t B a b).2 M < 50) :
    ∃ C : Nat → ℝ, (∀ κ, 0 ≤ C κ) ∧ ∀ (i : Nat) (GS : Nat → Cubature ℝ), (∀ k < 50, ∃ order j, i ≤ j ∧ j ≤ order ∧ GS k = gaussSquare es order j) → ∀ (ffq : Addr → Nat → SurfPt),
      (∀ a, IsNode P M a → ∀ k < (GS (farfieldDegree Operator.laplaceSL.order p).toNat).size, ffq a k =
        map2surface t geo a ((GS (farfieldDegree Operator.laplaceSL.order p).toNat).xi k) (getH t a * (GS (farfieldDegree Operator.laplaceSL.order p).toNat).w k)) →
      ∀ (jr jk : Nat → ℝ),
      ∃ v : Addr → Addr → Nat → Nat → ℝ, ∀ a b, IsNode P M a → IsNode P M b →
        evaluateBilinearForm Operator.laplaceSL.order p t B (Operator.laplaceSL.integrand jr jk p M) (map2surface t geo) GS ffq a b = some (v a b) ∧
        ∀ κ, ∀ k < (p + 1) * (p + 1), ∀ l < (p + 1) * (p + 1),
          |v a b k l - exactEntry t Operator.laplaceSL (map2surface t geo) p M jr jk a b k l| ≤ C κ / ((i : ℝ) + 1) ^ κ :=
  pair_rate_of near corner P M hP hM hc ho geo hreg hsm hw hemb hcusp t ht Operator.laplaceSL rfl es (C89_operators es hes 0).1 junkB B0 B hB p hdeg

/-- The computed matrix converges to the exact matrix. -/
theorem matrix_error (es : EigenSolver) (hes : SolverCorrect es) (junkB : Nat → V3) (B0 B : Addr → Ball V3)
    (hB : computeElementEnclosings t (fun p s => (geo p s).1) junkB B0 = some B) (p : Nat)
    (hdeg : ∀ a b, IsNode P M a → IsNode P M b → pairDegree Operator.laplaceSL.order p (compareElements t B a b).2 M < 50)
    (T : EMat ℝ) (hT : T.rows = 1 * ((p + 1) * (p + 1) * t.nElements)) :
    ∃ C : Nat → ℝ, (∀ κ, 0 ≤ C κ) ∧ ∀ (i : Nat) (GS : Nat → Cubature ℝ), (∀ k < 50, ∃ order j, i ≤ j ∧ j ≤ order ∧ GS k = gaussSquare es order j) → ∀ (ffq : Addr → Nat → SurfPt),
      (∀ a, IsNode P M a → ∀ k < (GS (farfieldDegree Operator.laplaceSL.order p).toNat).size, ffq a k =
        map2surface t geo a ((GS (farfieldDegree Operator.laplaceSL.order p).toNat).xi k) (getH t a * (GS (farfieldDegree Operator.laplaceSL.order p).toNat).w k)) →
      ∀ (jr jk : Nat → ℝ),
      ∃ L, Dense.tasks t 1 ((p + 1) * (p + 1)) (evaluateBilinearForm Operator.laplaceSL.order p t B (Operator.laplaceSL.integrand jr jk p M)
          (map2surface t geo) GS ffq) = some L ∧
        ∀ ws, ws.Perm L.flatten → ∀ junk : Nat → Nat → ℝ, ∃ S, Dense.compute junk t 1 ((p + 1) * (p + 1)) ws T = some S ∧ S.rows = T.cols ∧ S.cols = T.cols ∧
          ∀ κ, ∀ c < T.cols, ∀ d < T.cols,
            |S.at' c d - singleLayerForm ⟨t, p, geo, T⟩ (leaves P M) (unitVec T.cols c) (unitVec T.cols d)| ≤ C κ / ((i : ℝ) + 1) ^ κ :=
  matrix_error_of near corner P M hP hM hc ho geo hreg hsm hw hemb hcusp t ht Operator.laplaceSL rfl (fun f g => singleLayerForm ⟨t, p, geo, T⟩ (leaves P M) f g)
    es (C89_operators es hes 0).1 junkB B0 B hB p hdeg T hT fun jr jk f g => form_entries near corner P M hP hM hc ho geo hreg hsm hw hemb hcusp t ht p jr jk T f g

end
end SingleLayer
end Bembel.Props
