import Verif.Spec.Hypersingular
import Verif.Props.SingleLayer
/-! # C92: the Galerkin matrix of the hypersingular operator -/

namespace Bembel.Props
open Finset Mesh H2 Spec Util Duffy SuperSpace MeasureTheory FunctionEval
open scoped ContDiff

namespace Hypersingular
open Bembel.Singular SingleLayer

theorem surface_ext (P : Nat) (geo : Nat → ℝ × ℝ → V3 × V3 × V3) (hsm : SmoothSurface P geo) :
    ∃ g : Nat → ℝ × ℝ → V3, (∀ q, ContDiff ℝ ∞ (g q)) ∧ ∀ q < P, ∀ x, ClosedSquare x → geo q x = (g q x, fderiv ℝ (g q) x (1, 0), fderiv ℝ (g q) x (0, 1)) := by
  have hsm' : ∀ p, ∃ g : ℝ × ℝ → V3, ContDiff ℝ ∞ g ∧ (p < P → ∀ x, ClosedSquare x → geo p x = (g x, fderiv ℝ g x (1, 0), fderiv ℝ g x (0, 1))) := fun p => by
    by_cases hp : p < P
    · obtain ⟨g, h1, h2⟩ := hsm p hp
      exact ⟨g, h1, fun _ => h2⟩
    · exact ⟨fun _ => 0, contDiff_const, fun h => absurd h hp⟩
  choose g g1 g2 using hsm'
  exact ⟨g, g1, g2⟩

theorem shape_zero (s : ℝ × ℝ) : shape 0 0 s = 1 := by
  simp [shape, bern]

/-- Point of the element `a`, on the smooth extensions `g` of the patches. -/
noncomputable def pos (t : Mesh.Tree ℝ) (g : Nat → ℝ × ℝ → V3) (a : Addr) (s : ℝ × ℝ) : V3 :=
  g (t.patch a) ((t.llc a).1 + getH t a * s.1, (t.llc a).2 + getH t a * s.2)

/-- Tangent. -/
noncomputable def tangent (t : Mesh.Tree ℝ) (g : Nat → ℝ × ℝ → V3) (v : ℝ × ℝ) (a : Addr) (s : ℝ × ℝ) : V3 :=
  fderiv ℝ (g (t.patch a)) ((t.llc a).1 + getH t a * s.1, (t.llc a).2 + getH t a * s.2) v

theorem pos_cont (t : Mesh.Tree ℝ) (g : Nat → ℝ × ℝ → V3) (g1 : ∀ q, ContDiff ℝ ∞ (g q)) (a : Addr) : Continuous (pos t g a) :=
  (g1 _).continuous.comp (by fun_prop)

theorem tangent_cont (t : Mesh.Tree ℝ) (g : Nat → ℝ × ℝ → V3) (g1 : ∀ q, ContDiff ℝ ∞ (g q)) (v : ℝ × ℝ) (a : Addr) : Continuous (tangent t g v a) := by
  have hd : ContDiff ℝ ∞ fun x => fderiv ℝ (g (t.patch a)) x v := ((g1 _).fderiv_right (m := ∞) (by norm_cast)).clm_apply contDiff_const
  exact hd.continuous.comp (by fun_prop)

theorem cross_cont {X : Type} [TopologicalSpace X] {f g : X → V3} (hf : Continuous f) (hg : Continuous g) : Continuous fun x => cross3 (f x) (g x) := by
  have c : Continuous fun p : V3 × V3 => cross3 p.1 p.2 := (contDiff_iff_contDiffAt.2 fun x => Interpol.cross_smooth (f := Prod.fst) (g := Prod.snd) contDiff_fst.contDiffAt contDiff_snd.contDiffAt : ContDiff ℝ ∞ _).continuous
  exact c.comp (hf.prodMk hg)

section
variable (near : V3 → V3 → Bool) (corner : Nat → Nat → V3) (P M : Nat) (hP : 0 < P) (hM : 1 ≤ M) (hc : ConformingPatches near corner P)
    (ho : OrientedPatches corner P) (geo : Nat → ℝ × ℝ → V3 × V3 × V3) (hreg : RegularPatches P geo) (hsm : SmoothSurface P geo)
    (hw : Watertight corner P fun p s => (geo p s).1) (hemb : Embedded corner P geo) (hcusp : NoCusps P geo)
    (t : Mesh.Tree ℝ) (ht : initElementTree near corner P M = some t)

section
variable (g : Nat → ℝ × ℝ → V3) (g1 : ∀ q, ContDiff ℝ ∞ (g q))
    (g2 : ∀ q < P, ∀ x, ClosedSquare x → geo q x = (g q x, fderiv ℝ (g q) x (1, 0), fderiv ℝ (g q) x (0, 1)))
include hP ht g2

theorem point_eq (a : Addr) (ha : IsNode P M a) (s : ℝ × ℝ) (hs : ClosedSquare s) :
    elementPoint t geo a s = ⟨s, 1, pos t g a s, tangent t g (1, 0) a s, tangent t g (0, 1) a s⟩ := by
  obtain ⟨n1, n2⟩ := node_square near corner P M hP t ht M le_rfl a ha s hs
  unfold elementPoint
  simp only
  rw [g2 _ n1 _ n2]
  rfl

include g1 hM hc ho hreg hsm hw hemb hcusp

/-- Continuous densities on the elements have finite energy. -/
theorem energy_integrable (u v : ℝ × ℝ → ℝ) (hu : Continuous u) (hv : Continuous v) (a b : Addr) (ha : IsNode P M a) (hb : IsNode P M b) :
    Integrable (fun z : PointPair => u z.1 * v z.2 * (1 / ‖pos t g a z.1 - pos t g b z.2‖)) μ4 := by
  have hK : IsCompact (Set.Icc (0 : ℝ) 1 ×ˢ Set.Icc (0 : ℝ) 1) := isCompact_Icc.prod isCompact_Icc
  obtain ⟨A, hA⟩ := hK.exists_bound_of_continuousOn hu.continuousOn
  obtain ⟨B, hB⟩ := hK.exists_bound_of_continuousOn hv.continuousOn
  have low : ∀ a, IsNode P M a → ∃ m > 0, ∀ s, ClosedSquare s → m ≤ ‖cross3 (tangent t g (1, 0) a s) (tangent t g (0, 1) a s)‖ := fun a ha => by
    obtain ⟨s0, h0, hmin⟩ := hK.exists_isMinOn ⟨(0, 0), by simp⟩
      (cross_cont (tangent_cont t g g1 (1, 0) a) (tangent_cont t g g1 (0, 1) a)).norm.continuousOn
    refine ⟨_, ?_, fun s hs => hmin ⟨⟨hs.1, hs.2.1⟩, hs.2.2.1, hs.2.2.2⟩⟩
    have hs0 : ClosedSquare s0 := ⟨h0.1.1, h0.1.2, h0.2.1, h0.2.2⟩
    have := node_regular near corner P M hP t ht geo hreg M le_rfl a ha _ hs0 1
    have e := point_eq near corner P M hP geo t ht g g2 a ha s0 hs0
    unfold Regular map2surface at this
    unfold elementPoint at e
    have e1 := congrArg SurfPt.dx e
    have e2 := congrArg SurfPt.dy e
    simp only at e1 e2 this
    rw [e1, e2] at this
    exact norm_pos_iff.2 this
  obtain ⟨m, m0, hm⟩ := low a ha
  obtain ⟨m', m0', hm'⟩ := low b hb
  obtain ⟨int, -, eqF⟩ := pair_facts near corner P M hP hM hc ho geo hreg hsm hw hemb hcusp t ht 0 (fun _ => 0) (fun _ => 0) a b ha hb 0 0 one_pos one_pos
  have ha0 : 0 < getH t a := by unfold getH; positivity
  have hb0 : 0 < getH t b := by unfold getH; positivity
  refine Integrable.mono' (int.norm.const_mul (|A| * |B| * (4 * Real.pi / (getH t a * getH t b * m * m')))) ?_ ?_
  · refine (Measurable.mul (Measurable.mul (hu.measurable.comp measurable_fst) (hv.measurable.comp measurable_snd)) (Measurable.const_div ?_ _)).aestronglyMeasurable
    exact (((pos_cont t g g1 a).comp continuous_fst).sub ((pos_cont t g g1 b).comp continuous_snd)).norm.measurable
  · filter_upwards [mem_ae] with z hz
    obtain ⟨c1, c2⟩ := cube_square hz
    rw [eqF z hz, point_eq near corner P M hP geo t ht g g2 a ha _ c1, point_eq near corner P M hP geo t ht g g2 b hb _ c2]
    simp only [shape_zero, one_mul, Kernel.laplace, norm_mul, norm_div, Real.norm_eq_abs, abs_norm, abs_one]
    have b1 := hA z.1 ⟨⟨c1.1, c1.2.1⟩, c1.2.2.1, c1.2.2.2⟩
    have b2 := hB z.2 ⟨⟨c2.1, c2.2.1⟩, c2.2.2.1, c2.2.2.2⟩
    rw [Real.norm_eq_abs] at b1 b2
    have l1 := hm z.1 c1
    have l2 := hm' z.2 c2
    set r := ‖pos t g a z.1 - pos t g b z.2‖
    set k1 := ‖cross3 (tangent t g (1, 0) a z.1) (tangent t g (0, 1) a z.1)‖
    set k2 := ‖cross3 (tangent t g (1, 0) b z.2) (tangent t g (0, 1) b z.2)‖
    have r0 : 0 ≤ 1 / r := by positivity
    have pi0 := Real.pi_pos
    rw [abs_of_pos ha0, abs_of_pos hb0, abs_of_pos pi0, abs_of_pos (show (0 : ℝ) < 4 by norm_num)]
    have k0 : 1 ≤ k1 * k2 / (m * m') := by
      rw [le_div_iff₀ (by positivity), one_mul]
      exact mul_le_mul l1 l2 m0'.le (m0.le.trans l1)
    calc |u z.1| * |v z.2| * (1 / r) ≤ |A| * |B| * (1 / r) :=
          mul_le_mul_of_nonneg_right (mul_le_mul (b1.trans (le_abs_self A)) (b2.trans (le_abs_self B)) (abs_nonneg _) (abs_nonneg _)) r0
      _ ≤ |A| * |B| * (1 / r) * (k1 * k2 / (m * m')) := le_mul_of_one_le_right (by positivity) k0
      _ = _ := by field_simp

/-- The energy of continuous densities is positive and definite. -/
theorem density_energy (u : Addr → ℝ × ℝ → ℝ) (hu : ∀ a, Continuous (u a)) :
    let E := ∑ a ∈ (leaves P M).toFinset, ∑ b ∈ (leaves P M).toFinset, ∫ z, u a z.1 * u b z.2 * (1 / ‖pos t g a z.1 - pos t g b z.2‖) ∂μ4
    0 ≤ E ∧ (E = 0 → ∀ a ∈ leaves P M, ∀ s : ℝ × ℝ, 0 < s.1 → s.1 < 1 → 0 < s.2 → s.2 < 1 → u a s = 0) := by
  intro E
  have mem : ∀ a, a ∈ (leaves P M).toFinset ↔ IsNode P M a := fun a => by rw [List.mem_toFinset, mem_leaves]; rfl
  have inj' : ∀ a b, IsNode P M a → IsNode P M b → ∀ s r : ℝ × ℝ, 0 < s.1 → s.1 < 1 → 0 < s.2 → s.2 < 1 → ClosedSquare r → pos t g a s = pos t g b r → a = b ∧ s = r := by
    intro a b ha hb s r s1 s2 s3 s4 hr h
    refine interior_injective near corner P M hP t ht geo hemb a b ha hb s r s1 s2 s3 s4 hr ?_
    have e1 := congrArg SurfPt.f (point_eq near corner P M hP geo t ht g g2 a ha s ⟨s1.le, s2.le, s3.le, s4.le⟩)
    have e2 := congrArg SurfPt.f (point_eq near corner P M hP geo t ht g g2 b hb r hr)
    exact e1.trans (h.trans e2.symm)
  have sq : ∀ᵐ s ∂(μ1.prod μ1), s ∈ (Set.Icc (0 : ℝ) 1 ×ˢ Set.Icc (0 : ℝ) 1) := by
    filter_upwards [ae_interior] with s hs using ⟨⟨hs.1.1.le, hs.1.2.le⟩, hs.2.1.le, hs.2.2.le⟩
  obtain ⟨r1, r2⟩ := Energy.energy_definite (leaves P M).toFinset (μ1.prod μ1) u (pos t g) hu (pos_cont t g g1) (fun a ha b hb => by
      have h1 : ∀ᵐ p ∂((μ1.prod μ1).prod (μ1.prod μ1)), (0 < p.1.1 ∧ p.1.1 < 1) ∧ 0 < p.1.2 ∧ p.1.2 < 1 :=
        Measure.quasiMeasurePreserving_fst.ae ae_interior
      have h2 : ∀ᵐ p ∂((μ1.prod μ1).prod (μ1.prod μ1)), (0 < p.2.1 ∧ p.2.1 < 1) ∧ 0 < p.2.2 ∧ p.2.2 < 1 :=
        Measure.quasiMeasurePreserving_snd.ae ae_interior
      filter_upwards [h1, h2, ae_distinct] with p p1 p2 p3
      intro h
      exact p3 (inj' a b ((mem a).1 ha) ((mem b).1 hb) _ _ p1.1.1 p1.1.2 p1.2.1 p1.2.2 ⟨p2.1.1.le, p2.1.2.le, p2.2.1.le, p2.2.2.le⟩ h).2)
    (fun a ha b hb => by
      rw [← μ4_eq]
      exact energy_integrable near corner P M hP hM hc ho geo hreg hsm hw hemb hcusp t ht g g1 g2 (u a) (u b) (hu a) (hu b) a b ((mem a).1 ha) ((mem b).1 hb))
    _ (isCompact_Icc.prod isCompact_Icc) sq
  rw [← μ4_eq] at r1 r2
  refine ⟨r1, fun h0 a ha s s1 s2 s3 s4 => ?_⟩
  refine r2 h0 a ((mem a).2 (mem_leaves.1 ha)) s (fun U hU hs => open_pos s s1 s2 s3 s4 U hU hs) (fun b hb r hr h => ?_)
  obtain ⟨e1, e2⟩ := inj' a b (mem_leaves.1 ha) ((mem b).1 hb) s r s1 s2 s3 s4 ⟨hr.1.1, hr.1.2, hr.2.1, hr.2.2⟩ h.symm
  exact ⟨e1.symm, e2.symm⟩

end

/-- The surface curl of a function on an element with the coefficients `q`, without the surface measure. -/
noncomputable def curlOf (t : Mesh.Tree ℝ) (geo : Nat → ℝ × ℝ → V3 × V3 × V3) (p : Nat) (q : Nat → ℝ) (a : Addr) (s : ℝ × ℝ) : V3 :=
  (∑ k ∈ range ((p + 1) * (p + 1)), q k * shapeDx p k s) • (elementPoint t geo a s).dy -
  (∑ k ∈ range ((p + 1) * (p + 1)), q k * shapeDy p k s) • (elementPoint t geo a s).dx

include hP ht in
theorem getH_eq (a : Addr) (ha : IsNode P M a) : getH t a = 1 / 2 ^ M := by
  obtain ⟨t', k1, k2, -⟩ := tree_facts (K := ℝ) near corner P M hP
  obtain rfl : t = t' := Option.some.inj (ht.symm.trans k1)
  obtain ⟨-, e, -⟩ := k2 M le_rfl a (mem_leaves.2 ha)
  unfold getH; rw [e, ha.2.1]

include hP hM hc ho hreg hsm hw hemb hcusp ht

theorem pair_facts (p : Nat) (jr jk : Nat → ℝ) (a b : Addr) (ha : IsNode P M a) (hb : IsNode P M b) (k l : Nat) (hk : k < (p + 1) * (p + 1))
    (hl : l < (p + 1) * (p + 1)) :
    let F := pairIntegrand t Operator.laplaceHyp (map2surface t geo) p M jr jk a b k l
    Integrable F μ4 ∧ exactEntry t Operator.laplaceHyp (map2surface t geo) p M jr jk a b k l = ∫ x, F x ∂μ4 ∧
    ∀ x ∈ Cube, F x = Kernel.laplace (elementPoint t geo a x.1).f (elementPoint t geo b x.2).f *
      inner ℝ (shapeDx p k x.1 • (elementPoint t geo a x.1).dy - shapeDy p k x.1 • (elementPoint t geo a x.1).dx)
        (shapeDx p l x.2 • (elementPoint t geo b x.2).dy - shapeDy p l x.2 • (elementPoint t geo b x.2).dx) := by
  intro F
  obtain ⟨es, hes⟩ := solver_exists
  obtain ⟨t', h1, B, h2, -⟩ := C24_balls near corner P M hP hc (fun p s => (geo p s).1) hw (fun _ => 0) (fun _ => ⟨0, 0⟩)
  obtain rfl : t = t' := Option.some.inj (ht.symm.trans h1)
  obtain ⟨C, hC⟩ := (C89_operators es hes 0).2.2.2.1 near corner P M hP hM hc ho geo hreg hsm hw hemb hcusp t ht _ _ B h2 p 0
  have hvd : Operator.laplaceHyp.vd = 1 := rfl
  have int : Integrable F μ4 := (hC a b ha hb jr jk).1 k (by rw [hvd]; omega) l (by rw [hvd]; omega)
  refine ⟨int, integral4_eq _ int, fun x hx => ?_⟩
  have := Props.Singular.integrand_density Operator.laplaceHyp gradT C52_laplaceHyp (C63_position_only 0).2.2.2.1 near corner P M hP t ht geo hreg p jr jk a b ha hb 0 0 k l
    Nat.one_pos Nat.one_pos hk hl (getH t a) (getH t b) x hx
  rw [Nat.zero_mul, Nat.zero_add, Nat.zero_add] at this
  show Operator.integrand _ _ _ _ _ _ _ _ k l = _
  refine this.trans ?_
  unfold Props.Singular.density
  rw [getH_eq near corner P M hP t ht a ha, getH_eq near corner P M hP t ht b hb]
  simp only [Operator.laplaceHyp, Finset.sum_range_succ, Finset.sum_range_zero, gradT, Algebra.algebraMap_self, RingHom.id_apply, zero_mul, zero_add, if_true,
    one_ne_zero, if_false, inner_sub_left, inner_sub_right, real_inner_smul_left, real_inner_smul_right]
  have p0 : (2 : ℝ) ^ M ≠ 0 := by positivity
  show 1 / 2 ^ M * (1 / 2 ^ M) *
    (2 ^ M * shapeDx p k x.1 * (2 ^ M * shapeDx p l x.2) * (Kernel.laplace (elementPoint t geo a x.1).f (elementPoint t geo b x.2).f *
        inner ℝ (elementPoint t geo a x.1).dy (elementPoint t geo b x.2).dy) +
      2 ^ M * shapeDx p k x.1 * (2 ^ M * shapeDy p l x.2) * (-Kernel.laplace (elementPoint t geo a x.1).f (elementPoint t geo b x.2).f *
        inner ℝ (elementPoint t geo a x.1).dy (elementPoint t geo b x.2).dx) +
      (2 ^ M * shapeDy p k x.1 * (2 ^ M * shapeDx p l x.2) * (-Kernel.laplace (elementPoint t geo a x.1).f (elementPoint t geo b x.2).f *
        inner ℝ (elementPoint t geo a x.1).dx (elementPoint t geo b x.2).dy) +
      2 ^ M * shapeDy p k x.1 * (2 ^ M * shapeDy p l x.2) * (Kernel.laplace (elementPoint t geo a x.1).f (elementPoint t geo b x.2).f *
        inner ℝ (elementPoint t geo a x.1).dx (elementPoint t geo b x.2).dx))) = _
  field_simp
  ring

/-- The bilinear form of two functions on two elements. -/
theorem pair_form (p : Nat) (jr jk : Nat → ℝ) (a b : Addr) (ha : IsNode P M a) (hb : IsNode P M b) (qa qb : Nat → ℝ) (w : ℝ) :
    let N := (p + 1) * (p + 1)
    let G : PointPair → ℝ := fun x => inner ℝ (curlOf t geo p qa a x.1) (curlOf t geo p qb b x.2) *
      (1 / (4 * Real.pi * ‖(elementPoint t geo a x.1).f - (elementPoint t geo b x.2).f‖))
    Integrable G μ4 ∧ (Interpol.integral4 fun y z => w * G (y, z)) = w * ∫ x, G x ∂μ4 ∧
    ∫ x, G x ∂μ4 = ∑ k ∈ range N, ∑ l ∈ range N, qa k * exactEntry t Operator.laplaceHyp (map2surface t geo) p M jr jk a b k l * qb l := by
  intro N G
  have facts := fun k hk l hl => pair_facts near corner P M hP hM hc ho geo hreg hsm hw hemb hcusp t ht p jr jk a b ha hb k l hk hl
  simp only at facts
  have int : Integrable (fun x => ∑ k ∈ range N, ∑ l ∈ range N, qa k * qb l * pairIntegrand t Operator.laplaceHyp (map2surface t geo) p M jr jk a b k l x) μ4 :=
    integrable_finsetSum _ fun k hk => integrable_finsetSum _ fun l hl => (facts k (mem_range.1 hk) l (mem_range.1 hl)).1.const_mul _
  have cs : ∀ (q : Nat → ℝ) (a : Addr) (s : ℝ × ℝ), curlOf t geo p q a s =
      ∑ k ∈ range N, q k • (shapeDx p k s • (elementPoint t geo a s).dy - shapeDy p k s • (elementPoint t geo a s).dx) := fun q a s => by
    unfold curlOf
    rw [sum_smul, sum_smul, ← sum_sub_distrib]
    exact sum_congr rfl fun k _ => by rw [mul_smul, mul_smul, smul_sub]
  have eq : ∀ x ∈ Cube, (∑ k ∈ range N, ∑ l ∈ range N, qa k * qb l * pairIntegrand t Operator.laplaceHyp (map2surface t geo) p M jr jk a b k l x) = G x := by
    intro x hx
    simp only [G]
    rw [cs, cs, sum_inner, sum_mul]
    refine sum_congr rfl fun k hk => ?_
    rw [inner_sum, sum_mul]
    refine sum_congr rfl fun l hl => ?_
    rw [(facts k (mem_range.1 hk) l (mem_range.1 hl)).2.2 x hx, Kernel.laplace, real_inner_smul_left, real_inner_smul_right]
    rw [show 1 / 4 / Real.pi / ‖(elementPoint t geo a x.1).f - (elementPoint t geo b x.2).f‖ =
      1 / (4 * Real.pi * ‖(elementPoint t geo a x.1).f - (elementPoint t geo b x.2).f‖) by rw [div_div, div_div]; ring_nf]
    ring
  have eqae : (fun x => ∑ k ∈ range N, ∑ l ∈ range N, qa k * qb l * pairIntegrand t Operator.laplaceHyp (map2surface t geo) p M jr jk a b k l x) =ᵐ[μ4] G := by
    filter_upwards [mem_ae] with x hx using eq x hx
  have intG : Integrable G μ4 := int.congr eqae
  refine ⟨intG, ?_, ?_⟩
  · rw [integral4_eq (fun x => w * G x) (intG.const_mul w), integral_const_mul]
  rw [← integral_congr_ae eqae, integral_finsetSum _ fun k hk => integrable_finsetSum _ fun l hl => (facts k (mem_range.1 hk) l (mem_range.1 hl)).1.const_mul _]
  refine sum_congr rfl fun k hk => ?_
  rw [integral_finsetSum _ fun l hl => (facts k (mem_range.1 hk) l (mem_range.1 hl)).1.const_mul _]
  refine sum_congr rfl fun l hl => ?_
  rw [integral_const_mul, (facts k (mem_range.1 hk) l (mem_range.1 hl)).2.1]
  ring

/-- The bilinear form as a sum of integrals over pairs of elements. -/
theorem form_eq (p : Nat) (T f g : EMat ℝ) :
    hypersingularForm ⟨t, p, geo, T⟩ (leaves P M) f g = ∑ a ∈ (leaves P M).toFinset, ∑ b ∈ (leaves P M).toFinset,
      ∫ x : PointPair, inner ℝ (curlOf t geo p (localCoeff T f t.nElements p 0 (t.id a)) a x.1) (curlOf t geo p (localCoeff T g t.nElements p 0 (t.id b)) b x.2) *
        (1 / (4 * Real.pi * ‖(elementPoint t geo a x.1).f - (elementPoint t geo b x.2).f‖)) ∂μ4 := by
  unfold hypersingularForm doubleIntegral
  rw [List.sum_toFinset _ (leaves_nodup P M)]
  refine congrArg List.sum (List.map_congr_left fun a ha => ?_)
  rw [List.sum_toFinset _ (leaves_nodup P M)]
  refine congrArg List.sum (List.map_congr_left fun b hb => ?_)
  have ha0 : getH t a ≠ 0 := by unfold getH; positivity
  have hb0 : getH t b ≠ 0 := by unfold getH; positivity
  obtain ⟨-, h2, -⟩ := pair_form near corner P M hP hM hc ho geo hreg hsm hw hemb hcusp t ht p (fun _ => 0) (fun _ => 0) a b (mem_leaves.1 ha) (mem_leaves.1 hb)
    (localCoeff T f t.nElements p 0 (t.id a)) (localCoeff T g t.nElements p 0 (t.id b)) (1 / (getH t a ^ 2 * getH t b ^ 2))
  refine Eq.trans (congrArg (getH t a ^ 2 * getH t b ^ 2 * ·) (Eq.trans ?_ h2)) ?_
  · unfold Interpol.integral4
    refine Interpol.int_congr _ _ fun x hx => Interpol.int_congr _ _ fun y hy => Interpol.int_congr _ _ fun u hu => Interpol.int_congr _ _ fun v hv => ?_
    have reg : ∀ a, IsNode P M a → ∀ s, ClosedSquare s → ‖cross3 (elementPoint t geo a s).dx (elementPoint t geo a s).dy‖ ≠ 0 := fun a ha s hs =>
      norm_ne_zero_iff.2 (node_regular near corner P M hP t ht geo hreg M le_rfl a ha _ hs 1)
    have ra := reg a (mem_leaves.1 ha) (x, y) ⟨hx.1, hx.2, hy.1, hy.2⟩
    have rb := reg b (mem_leaves.1 hb) (u, v) ⟨hu.1, hu.2, hv.1, hv.2⟩
    have cc : ∀ (q : EMat ℝ) (a : Addr) (s : ℝ × ℝ), discreteCurl ⟨t, p, geo, T⟩ q a (elementPoint t geo a s) =
        (1 / ‖cross3 (elementPoint t geo a s).dx (elementPoint t geo a s).dy‖ * (1 / getH t a ^ 2)) •
          curlOf t geo p (localCoeff T q t.nElements p 0 (t.id a)) a s := fun q a s => by
      simp only [discreteCurl, surfaceCurl, discreteDx, discreteDy, Algebra.algebraMap_self, RingHom.id_apply, curlOf, mul_smul, smul_sub]
      rfl
    simp only [cc, real_inner_smul_left, real_inner_smul_right]
    field_simp
  · simp only []
    field_simp

/-- The bilinear form in terms of the exact matrices of pairs of elements. -/
theorem form_entries (p : Nat) (jr jk : Nat → ℝ) (T f g : EMat ℝ) :
    hypersingularForm ⟨t, p, geo, T⟩ (leaves P M) f g =
      ∑ a ∈ (leaves P M).toFinset, ∑ b ∈ (leaves P M).toFinset, ∑ k ∈ range ((p + 1) * (p + 1)), ∑ l ∈ range ((p + 1) * (p + 1)),
        localCoeff T f t.nElements p 0 (t.id a) k * exactEntry t Operator.laplaceHyp (map2surface t geo) p M jr jk a b k l *
          localCoeff T g t.nElements p 0 (t.id b) l := by
  rw [form_eq near corner P M hP hM hc ho geo hreg hsm hw hemb hcusp t ht p T f g]
  refine sum_congr rfl fun a ha => sum_congr rfl fun b hb => ?_
  rw [List.mem_toFinset, mem_leaves] at ha hb
  exact (pair_form near corner P M hP hM hc ho geo hreg hsm hw hemb hcusp t ht p jr jk a b ha hb _ _ 1).2.2

theorem form_symm (p : Nat) (T f g : EMat ℝ) :
    hypersingularForm ⟨t, p, geo, T⟩ (leaves P M) f g = hypersingularForm ⟨t, p, geo, T⟩ (leaves P M) g f := by
  have e := form_eq near corner P M hP hM hc ho geo hreg hsm hw hemb hcusp t ht p T
  rw [e, e, sum_comm]
  refine sum_congr rfl fun b _ => sum_congr rfl fun a _ => ?_
  rw [μ4_eq, ← integral_prod_swap]
  refine integral_congr_ae (Filter.Eventually.of_forall fun x => ?_)
  simp only [Prod.swap]
  rw [norm_sub_rev, real_inner_comm]

/-- The energy of the surface curls. -/
theorem curl_energy (p : Nat) (q : Addr → Nat → ℝ) :
    let E := ∑ a ∈ (leaves P M).toFinset, ∑ b ∈ (leaves P M).toFinset,
      ∫ x : PointPair, inner ℝ (curlOf t geo p (q a) a x.1) (curlOf t geo p (q b) b x.2) *
        (1 / (4 * Real.pi * ‖(elementPoint t geo a x.1).f - (elementPoint t geo b x.2).f‖)) ∂μ4
    0 ≤ E ∧ (E = 0 → ∀ a, IsNode P M a → ∀ s : ℝ × ℝ, 0 < s.1 → s.1 < 1 → 0 < s.2 → s.2 < 1 → curlOf t geo p (q a) a s = 0) := by
  intro E
  obtain ⟨g, g1, g2⟩ := surface_ext P geo hsm
  have mem : ∀ a, a ∈ (leaves P M).toFinset ↔ IsNode P M a := fun a => by rw [List.mem_toFinset, mem_leaves]; rfl
  let V : Addr → ℝ × ℝ → V3 := fun a s => (∑ k ∈ range ((p + 1) * (p + 1)), q a k * shapeDx p k s) • tangent t g (0, 1) a s -
    (∑ k ∈ range ((p + 1) * (p + 1)), q a k * shapeDy p k s) • tangent t g (1, 0) a s
  have hV : ∀ a, Continuous (V a) := fun a =>
    ((continuous_finsetSum _ fun k _ => continuous_const.mul (Smooth.shapeDx_smooth p k).continuous).smul (tangent_cont t g g1 _ a)).sub
      ((continuous_finsetSum _ fun k _ => continuous_const.mul (Smooth.shapeDy_smooth p k).continuous).smul (tangent_cont t g g1 _ a))
  have eV : ∀ a, IsNode P M a → ∀ s, ClosedSquare s → curlOf t geo p (q a) a s = V a s := fun a ha s hs => by
    unfold curlOf
    rw [point_eq near corner P M hP geo t ht g g2 a ha s hs]
  have hu : ∀ (i : Fin 3) a, Continuous fun s => V a s i := fun i a => (EuclideanSpace.proj (𝕜 := ℝ) i).continuous.comp (hV a)
  have en := fun i => density_energy near corner P M hP hM hc ho geo hreg hsm hw hemb hcusp t ht g g1 g2 (fun a s => V a s i) (hu i)
  simp only at en
  have int := fun (i : Fin 3) a ha b hb => energy_integrable near corner P M hP hM hc ho geo hreg hsm hw hemb hcusp t ht g g1 g2 (fun s => V a s i) (fun s => V b s i)
    (hu i a) (hu i b) a b ha hb
  have pi0 : 0 < 4 * Real.pi := by positivity
  have eqE : E = 1 / (4 * Real.pi) * ∑ i : Fin 3, ∑ a ∈ (leaves P M).toFinset, ∑ b ∈ (leaves P M).toFinset,
      ∫ z, V a z.1 i * V b z.2 i * (1 / ‖pos t g a z.1 - pos t g b z.2‖) ∂μ4 := by
    rw [sum_comm, mul_sum]
    refine sum_congr rfl fun a ha => ?_
    rw [sum_comm, mul_sum]
    refine sum_congr rfl fun b hb => ?_
    rw [← integral_finsetSum _ fun i _ => int i a ((mem a).1 ha) b ((mem b).1 hb), ← integral_const_mul]
    refine integral_congr_ae ?_
    filter_upwards [mem_ae] with z hz
    obtain ⟨c1, c2⟩ := cube_square hz
    rw [eV a ((mem a).1 ha) _ c1, eV b ((mem b).1 hb) _ c2, point_eq near corner P M hP geo t ht g g2 a ((mem a).1 ha) _ c1,
      point_eq near corner P M hP geo t ht g g2 b ((mem b).1 hb) _ c2, PiLp.inner_apply, Fin.sum_univ_three, Fin.sum_univ_three, ← one_div_mul_one_div (4 * Real.pi)]
    simp only [RCLike.inner_apply, conj_trivial]
    ring
  have nn : ∀ i ∈ (univ : Finset (Fin 3)), 0 ≤ ∑ a ∈ (leaves P M).toFinset, ∑ b ∈ (leaves P M).toFinset,
      ∫ z, V a z.1 i * V b z.2 i * (1 / ‖pos t g a z.1 - pos t g b z.2‖) ∂μ4 := fun i _ => (en i).1
  rw [eqE]
  refine ⟨mul_nonneg (by positivity) (sum_nonneg nn), fun h a ha s s1 s2 s3 s4 => ?_⟩
  have h := (sum_eq_zero_iff_of_nonneg nn).1 ((mul_eq_zero.1 h).resolve_left (by positivity))
  rw [eV a ha s ⟨s1.le, s2.le, s3.le, s4.le⟩]
  ext i
  exact (en i).2 (h i (mem_univ i)) a (mem_leaves.2 ha) s s1 s2 s3 s4

omit hP hM hc ho hreg hsm hw hemb hcusp ht in
/-- A function on an element is constant if and only if its partial derivatives vanish. -/
theorem constant_iff (p : Nat) (q : Nat → ℝ) : let N := (p + 1) * (p + 1)
    (∃ c : ℝ, ∀ s : ℝ × ℝ, 0 < s.1 → s.1 < 1 → 0 < s.2 → s.2 < 1 → ∑ k ∈ range N, q k * shape p k s = c) ↔
    ∀ s : ℝ × ℝ, 0 < s.1 → s.1 < 1 → 0 < s.2 → s.2 < 1 → ∑ k ∈ range N, q k * shapeDx p k s = 0 ∧ ∑ k ∈ range N, q k * shapeDy p k s = 0 := by
  intro N
  let φ : ℝ × ℝ → ℝ := fun s => ∑ k ∈ range N, q k * shape p k s
  have hφ : ContDiff ℝ ∞ φ := ContDiff.sum fun k _ => contDiff_const.mul (Smooth.shape_smooth p k)
  have hd : Differentiable ℝ φ := hφ.differentiable (by simp)
  have dx : ∀ s, fderiv ℝ φ s (1, 0) = ∑ k ∈ range N, q k * shapeDx p k s := fun s => by
    have e : fderiv ℝ φ s = ∑ k ∈ range N, q k • fderiv ℝ (shape p k) s := by
      have : HasFDerivAt φ (∑ k ∈ range N, q k • fderiv ℝ (shape p k) s) s :=
        HasFDerivAt.fun_sum fun k _ => (((Smooth.shape_smooth p k).differentiable (by simp)) s).hasFDerivAt.const_mul (q k)
      exact this.fderiv
    rw [e, ContinuousLinearMap.sum_apply]
    refine sum_congr rfl fun k _ => ?_
    have h1 := (((Smooth.shape_smooth p k).differentiable (by simp)) s).hasFDerivAt
    have h2 : HasDerivAt (fun x : ℝ => ((x, s.2) : ℝ × ℝ)) (1, 0) s.1 := (hasDerivAt_id _).prodMk (hasDerivAt_const _ _)
    have h3 := HasFDerivAt.comp_hasDerivAt (f := fun x : ℝ => ((x, s.2) : ℝ × ℝ)) s.1 h1 h2
    rw [ContinuousLinearMap.smul_apply, smul_eq_mul, shapeDx]
    exact congrArg (q k * ·) h3.deriv.symm
  have dy : ∀ s, fderiv ℝ φ s (0, 1) = ∑ k ∈ range N, q k * shapeDy p k s := fun s => by
    have e : fderiv ℝ φ s = ∑ k ∈ range N, q k • fderiv ℝ (shape p k) s := by
      have : HasFDerivAt φ (∑ k ∈ range N, q k • fderiv ℝ (shape p k) s) s :=
        HasFDerivAt.fun_sum fun k _ => (((Smooth.shape_smooth p k).differentiable (by simp)) s).hasFDerivAt.const_mul (q k)
      exact this.fderiv
    rw [e, ContinuousLinearMap.sum_apply]
    refine sum_congr rfl fun k _ => ?_
    have h1 := (((Smooth.shape_smooth p k).differentiable (by simp)) s).hasFDerivAt
    have h2 : HasDerivAt (fun x : ℝ => ((s.1, x) : ℝ × ℝ)) (0, 1) s.2 := (hasDerivAt_const _ _).prodMk (hasDerivAt_id _)
    have h3 := HasFDerivAt.comp_hasDerivAt (f := fun x : ℝ => ((s.1, x) : ℝ × ℝ)) s.2 h1 h2
    rw [ContinuousLinearMap.smul_apply, smul_eq_mul, shapeDy]
    exact congrArg (q k * ·) h3.deriv.symm
  have ho : IsOpen (Set.Ioo (0 : ℝ) 1 ×ˢ Set.Ioo (0 : ℝ) 1) := isOpen_Ioo.prod isOpen_Ioo
  constructor
  · rintro ⟨c, hc⟩ s s1 s2 s3 s4
    have ev : φ =ᶠ[nhds s] fun _ => c := by
      filter_upwards [ho.mem_nhds (show s ∈ _ from ⟨⟨s1, s2⟩, s3, s4⟩)] with r hr using hc r hr.1.1 hr.1.2 hr.2.1 hr.2.2
    have z : fderiv ℝ φ s = 0 := by rw [ev.fderiv_eq]; simp
    rw [← dx, ← dy, z]
    exact ⟨rfl, rfl⟩
  · intro h
    have cv : Convex ℝ (Set.Ioo (0 : ℝ) 1 ×ˢ Set.Ioo (0 : ℝ) 1) := (convex_Ioo 0 1).prod (convex_Ioo 0 1)
    have z : ∀ s ∈ Set.Ioo (0 : ℝ) 1 ×ˢ Set.Ioo (0 : ℝ) 1, fderiv ℝ φ s = 0 := fun s hs => by
      obtain ⟨h1, h2⟩ := h s hs.1.1 hs.1.2 hs.2.1 hs.2.2
      rw [← dx] at h1
      rw [← dy] at h2
      ext
      · simpa using h1
      · simpa using h2
    refine ⟨φ (1 / 2, 1 / 2), fun s s1 s2 s3 s4 => ?_⟩
    exact ho.is_const_of_fderiv_eq_zero cv.isPreconnected hd.differentiableOn (fun s hs => z s hs) ⟨⟨s1, s2⟩, s3, s4⟩ ⟨⟨by norm_num, by norm_num⟩, by norm_num, by norm_num⟩

omit hM hc ho hsm hw hemb hcusp in
theorem curl_zero_iff (p : Nat) (T f : EMat ℝ) : ElementwiseConstant P M ⟨t, p, geo, T⟩ f ↔
    ∀ a, IsNode P M a → ∀ s : ℝ × ℝ, 0 < s.1 → s.1 < 1 → 0 < s.2 → s.2 < 1 → curlOf t geo p (localCoeff T f t.nElements p 0 (t.id a)) a s = 0 := by
  refine forall_congr' fun a => forall_congr' fun ha => ?_
  have h0 : (1 : ℝ) / getH t a ≠ 0 := by unfold getH; positivity
  have e := constant_iff p (localCoeff T f t.nElements p 0 (t.id a))
  simp only at e
  constructor
  · rintro ⟨c, hc⟩ s s1 s2 s3 s4
    obtain ⟨e1, e2⟩ := e.1 ⟨c / (1 / getH t a), fun s s1 s2 s3 s4 => by
      rw [eq_div_iff h0, mul_comm]
      have := hc s s1 s2 s3 s4
      simpa only [discreteFunction, Algebra.algebraMap_self, RingHom.id_apply] using this⟩ s s1 s2 s3 s4
    unfold curlOf
    rw [e1, e2, zero_smul, zero_smul, sub_zero]
  · intro h
    obtain ⟨c, hc⟩ := e.2 fun s s1 s2 s3 s4 => by
      have hz := h s s1 s2 s3 s4
      have reg := node_regular near corner P M hP t ht geo hreg M le_rfl a ha _ ⟨s1.le, s2.le, s3.le, s4.le⟩ 1
      unfold curlOf at hz
      obtain ⟨h1, h2⟩ := cross_of_dependent (elementPoint t geo a s).dx (elementPoint t geo a s).dy
        (-∑ k ∈ range ((p + 1) * (p + 1)), localCoeff T f t.nElements p 0 (t.id a) k * shapeDy p k s)
        (∑ k ∈ range ((p + 1) * (p + 1)), localCoeff T f t.nElements p 0 (t.id a) k * shapeDx p k s) (by rw [← hz]; module) reg
      exact ⟨h2, neg_eq_zero.1 h1⟩
    exact ⟨1 / getH t a * c, fun s s1 s2 s3 s4 => by
      simp only [discreteFunction, Algebra.algebraMap_self, RingHom.id_apply]
      rw [hc s s1 s2 s3 s4]⟩

theorem form_definite (p : Nat) (T f : EMat ℝ) :
    0 ≤ hypersingularForm ⟨t, p, geo, T⟩ (leaves P M) f f ∧
    (hypersingularForm ⟨t, p, geo, T⟩ (leaves P M) f f = 0 ↔ ElementwiseConstant P M ⟨t, p, geo, T⟩ f) ∧
    (ElementwiseConstant P M ⟨t, p, geo, T⟩ f → ∀ g, hypersingularForm ⟨t, p, geo, T⟩ (leaves P M) f g = 0) := by
  have e := form_eq near corner P M hP hM hc ho geo hreg hsm hw hemb hcusp t ht p T f
  have cz := curl_zero_iff near corner P M hP geo hreg t ht p T f
  obtain ⟨h1, h2⟩ := curl_energy near corner P M hP hM hc ho geo hreg hsm hw hemb hcusp t ht p fun a => localCoeff T f t.nElements p 0 (t.id a)
  have h3 : ElementwiseConstant P M ⟨t, p, geo, T⟩ f → ∀ g, hypersingularForm ⟨t, p, geo, T⟩ (leaves P M) f g = 0 := fun h g => by
    rw [e g]
    refine sum_eq_zero fun a ha => sum_eq_zero fun b hb => integral_eq_zero_of_ae ?_
    rw [List.mem_toFinset, mem_leaves] at ha
    rw [μ4_eq]
    have h1 : ∀ᵐ p ∂((μ1.prod μ1).prod (μ1.prod μ1)), (0 < p.1.1 ∧ p.1.1 < 1) ∧ 0 < p.1.2 ∧ p.1.2 < 1 :=
      Measure.quasiMeasurePreserving_fst.ae ae_interior
    filter_upwards [h1] with x hx
    rw [cz.1 h a ha x.1 hx.1.1 hx.1.2 hx.2.1 hx.2.2, inner_zero_left, zero_mul]
    rfl
  rw [e f]
  refine ⟨h1, ⟨fun h => cz.2 (h2 h), fun h => ?_⟩, h3⟩
  rw [← e f]
  exact h3 h f

end
end Hypersingular
end Bembel.Props
