import Mathlib.Tactic.Module
import Mathlib.Algebra.MvPolynomial.Polynomial
import Mathlib.MeasureTheory.Integral.DominatedConvergence
import Mathlib.Algebra.MvPolynomial.Degrees
import Mathlib.Topology.Algebra.MvPolynomial
import Mathlib.Tactic.ComputeDegree
import Verif.Lemmas.DuffyIntegral
import Verif.Props.Quadrature
import Verif.Spec.Mesh
/-!
# C43, C45: rotations and coordinate transformations of the singular quadrature
-/

set_option linter.unusedSectionVars false

namespace Bembel.Props
open Duffy Finset H2 MeasureTheory

/-! ## C43 -/

/-- C43: for every case the rotation maps the closed unit square bijectively to itself, and likewise the open square. -/
theorem C43_bijective (c : Nat) :
    Set.BijOn (fun p : ℝ × ℝ => tau p.1 p.2 c) (Set.Icc 0 1) (Set.Icc 0 1) ∧
    (∀ p : ℝ × ℝ, InSquare (tau p.1 p.2 c) ↔ InSquare p) := by
  have key : ∀ c : Nat, ∃ d : Nat, ∀ x y : ℝ, tau (tau x y c).1 (tau x y c).2 d = (x, y) ∧
      tau (tau x y d).1 (tau x y d).2 c = (x, y) := by
    intro c
    match c with
    | 0 => exact ⟨0, fun x y => ⟨rfl, rfl⟩⟩
    | 1 => exact ⟨3, fun x y => by simp [tau]⟩
    | 2 => exact ⟨2, fun x y => by simp [tau]⟩
    | 3 => exact ⟨1, fun x y => by simp [tau]⟩
    | n + 4 => exact ⟨0, fun x y => ⟨rfl, rfl⟩⟩
  have maps : ∀ c : Nat, ∀ p ∈ Set.Icc (0 : ℝ × ℝ) 1, tau p.1 p.2 c ∈ Set.Icc (0 : ℝ × ℝ) 1 := by
    intro c p hp
    obtain ⟨⟨h1, h2⟩, h3, h4⟩ := hp
    simp only [Prod.fst_zero, Prod.snd_zero, Prod.fst_one, Prod.snd_one] at h1 h2 h3 h4
    match c with
    | 0 => exact ⟨⟨h1, h2⟩, h3, h4⟩
    | 1 => exact ⟨⟨by simp [tau]; linarith, by simpa [tau]⟩, by simpa [tau], by simpa [tau]⟩
    | 2 => exact ⟨⟨by simp [tau]; linarith, by simp [tau]; linarith⟩, by simpa [tau], by simpa [tau]⟩
    | 3 => exact ⟨⟨by simpa [tau], by simp [tau]; linarith⟩, by simpa [tau], by simpa [tau]⟩
    | n + 4 => exact ⟨⟨h1, h2⟩, h3, h4⟩
  refine ⟨?_, ?_⟩
  · obtain ⟨d, hd⟩ := key c
    refine ⟨maps c, ?_, ?_⟩
    · intro p _ q _ e
      have := congrArg (fun z : ℝ × ℝ => tau z.1 z.2 d) e
      simpa only [(hd _ _).1] using this
    · intro p hp
      exact ⟨tau p.1 p.2 d, maps d p hp, (hd _ _).2⟩
  · intro p
    match c with
    | 0 => exact Iff.rfl
    | 1 => simp only [InSquare, tau]; constructor <;> (rintro ⟨a, b, c, d⟩; refine ⟨?_, ?_, ?_, ?_⟩ <;> linarith)
    | 2 => simp only [InSquare, tau]; constructor <;> (rintro ⟨a, b, c, d⟩; refine ⟨?_, ?_, ?_, ?_⟩ <;> linarith)
    | 3 => simp only [InSquare, tau]; constructor <;> (rintro ⟨a, b, c, d⟩; refine ⟨?_, ?_, ?_, ?_⟩ <;> linarith)
    | n + 4 => exact Iff.rfl

/-- C43: the rotation is an affine map whose linear part is a rotation: orthogonal with determinant one. -/
theorem C43_orientation (c : Nat) : ∃ a b : ℝ, a * a + b * b = 1 ∧
    ∀ x y : ℝ, tau x y c = ((tau 0 0 c).1 + (a * x - b * y), (tau 0 0 c).2 + (b * x + a * y)) := by
  match c with
  | 0 => exact ⟨1, 0, by norm_num, fun x y => by simp [tau]⟩
  | 1 => exact ⟨0, 1, by norm_num, fun x y => by simp [tau]; ring⟩
  | 2 => exact ⟨-1, 0, by norm_num, fun x y => by simp [tau]; constructor <;> ring⟩
  | 3 => exact ⟨0, -1, by norm_num, fun x y => by simp [tau]; ring⟩
  | n + 4 => exact ⟨1, 0, by norm_num, fun x y => by simp [tau]⟩

theorem tau_measurable (c : Nat) : Measurable fun p : ℝ × ℝ => tau p.1 p.2 c := by
  match c with
  | 0 => exact (by fun_prop : Measurable fun p : ℝ × ℝ => (p.1, p.2))
  | 1 => exact (by fun_prop : Measurable fun p : ℝ × ℝ => (1 - p.2, p.1))
  | 2 => exact (by fun_prop : Measurable fun p : ℝ × ℝ => (1 - p.1, 1 - p.2))
  | 3 => exact (by fun_prop : Measurable fun p : ℝ × ℝ => (p.2, 1 - p.1))
  | n + 4 => exact (by fun_prop : Measurable fun p : ℝ × ℝ => (p.1, p.2))

theorem tau_preserving (c : Nat) :
    MeasurePreserving (fun p : ℝ × ℝ => tau p.1 p.2 c) volume volume := by
  have r : MeasurePreserving (fun x : ℝ => 1 - x) volume volume := Measure.measurePreserving_sub_left volume 1
  have i : MeasurePreserving (fun x : ℝ => x) volume volume := MeasurePreserving.id _
  have sw : MeasurePreserving (Prod.swap : ℝ × ℝ → ℝ × ℝ) volume volume := Measure.measurePreserving_swap
  match c with
  | 0 => exact MeasurePreserving.id _
  | 1 => exact (r.prod i).comp sw
  | 2 => exact r.prod r
  | 3 => exact (i.prod r).comp sw
  | n + 4 => exact MeasurePreserving.id _

/-- C43: the rotation preserves area: of every set of the plane, and the integral over the unit square. -/
theorem C43_area (c : Nat) :
    (∀ A : Set (ℝ × ℝ), MeasurableSet A → volume ((fun p : ℝ × ℝ => tau p.1 p.2 c) ⁻¹' A) = volume A) ∧
    ∀ f : ℝ × ℝ → ℝ, ∫ p in Set.Icc (0 : ℝ × ℝ) 1, f (tau p.1 p.2 c) = ∫ p in Set.Icc (0 : ℝ × ℝ) 1, f p := by
  have h := tau_preserving c
  refine ⟨fun A hA => h.measure_preimage hA.nullMeasurableSet, ?_⟩
  intro f
  have hb := (C43_bijective c).1
  have e : (fun p : ℝ × ℝ => tau p.1 p.2 c) ⁻¹' (Set.Icc 0 1) = Set.Icc 0 1 := by
    ext p
    refine ⟨?_, fun hp => hb.mapsTo hp⟩
    intro hp
    obtain ⟨⟨h1, h2⟩, h3, h4⟩ := hp
    match c with
    | 0 => exact ⟨⟨h1, h2⟩, h3, h4⟩
    | 1 => simp [tau] at h1 h2 h3 h4; exact ⟨⟨h2, h3⟩, h4, h1⟩
    | 2 => simp [tau] at h1 h2 h3 h4; exact ⟨⟨h3, h4⟩, h1, h2⟩
    | 3 => simp [tau] at h1 h2 h3 h4; exact ⟨⟨h4, h1⟩, h2, h3⟩
    | n + 4 => exact ⟨⟨h1, h2⟩, h3, h4⟩
  have hr : MeasurePreserving (fun p : ℝ × ℝ => tau p.1 p.2 c) (volume.restrict (Set.Icc 0 1)) (volume.restrict (Set.Icc 0 1)) := by
    have := h.restrict_preimage (s := Set.Icc (0 : ℝ × ℝ) 1) measurableSet_Icc
    rwa [e] at this
  have hinj : Function.Injective fun p : ℝ × ℝ => tau p.1 p.2 c := by
    obtain ⟨a, b, hab, ht⟩ := C43_orientation c
    intro p q hpq
    have e := (ht p.1 p.2).symm.trans (hpq.trans (ht q.1 q.2))
    have e1 : (tau 0 0 c).1 + (a * p.1 - b * p.2) = (tau 0 0 c).1 + (a * q.1 - b * q.2) := congrArg Prod.fst e
    have e2 : (tau 0 0 c).2 + (b * p.1 + a * p.2) = (tau 0 0 c).2 + (b * q.1 + a * q.2) := congrArg Prod.snd e
    refine Prod.ext ?_ ?_
    · linear_combination a * e1 + b * e2 + (q.1 - p.1) * hab
    · linear_combination a * e2 - b * e1 + (q.2 - p.2) * hab
  exact hr.integral_comp (h.measurable.measurableEmbedding hinj) f

/-- C43: vertex 0 and edge 0 are mapped to the vertex and the edge with the given number; the edge is traversed in the
direction of the numbering. -/
theorem C43_edge (c : Nat) (hc : c < 4) :
    (∀ s : ℝ, tau s 0 c = Mesh.edgePoint c s) ∧ tau (0 : ℝ) 0 c = Mesh.cornerPoint c ∧
    tau (1 : ℝ) 0 c = Mesh.cornerPoint ((c + 1) % 4) := by
  obtain rfl | rfl | rfl | rfl : c = 0 ∨ c = 1 ∨ c = 2 ∨ c = 3 := by omega
  all_goals simp [tau, Mesh.edgePoint, Mesh.cornerPoint]

/-! ## C45 -/

section sums
variable {SP M : Type} [AddCommGroup M] [Module ℝ M]

theorem fold_sum (n : Nat) (g : Nat → M) (v : M) : (List.range n).foldl (fun v i => v + g i) v = v + ∑ i ∈ range n, g i := by
  induction n with
  | zero => simp
  | succ n ih => rw [List.range_succ, List.foldl_append, ih, sum_range_succ]; simp [add_assoc]

theorem fold_pair (Q : Cubature ℝ) (st : Nat → Nat → M → M) (c : ℝ) (G : PointPair → M)
    (h : ∀ i < Q.size, ∀ j < Q.size, ∀ v, st i j v = v + (c * (Q.w i * Q.w j)) • G (Q.xi i, Q.xi j)) :
    (List.range Q.size).foldl (fun v i => (List.range Q.size).foldl (fun v j => st i j v) v) 0 = c • pairQuad Q G := by
  have e1 : ∀ i < Q.size, ∀ v, (List.range Q.size).foldl (fun v j => st i j v) v =
      v + ∑ j ∈ range Q.size, (c * (Q.w i * Q.w j)) • G (Q.xi i, Q.xi j) := by
    intro i hi v
    rw [← fold_sum]
    refine List.foldl_ext _ _ _ fun v j hj => h i hi j (List.mem_range.1 hj) v
  have e2 : (List.range Q.size).foldl (fun v i => (List.range Q.size).foldl (fun v j => st i j v) v) 0 =
      0 + ∑ i ∈ range Q.size, ∑ j ∈ range Q.size, (c * (Q.w i * Q.w j)) • G (Q.xi i, Q.xi j) := by
    rw [← fold_sum]
    refine List.foldl_ext _ _ _ fun v i hi => e1 i (List.mem_range.1 hi) v
  rw [e2, zero_add, pairQuad, smul_sum]
  refine sum_congr rfl fun i _ => ?_
  rw [smul_sum]
  exact sum_congr rfl fun j _ => mul_smul _ _ _

variable {ev : SP → SP → M → M} {m1 m2 : ℝ × ℝ → ℝ → SP} {F : PointPair → M}

/-- C45: for elements without common points both routines compute `h²` times the quadrature of the integrand: the one that
maps the nodes itself, and the one that uses precomputed nodes of the two elements. -/
theorem C45_regular (hev : AddsIntegrand ev m1 m2 F) (h : ℝ) (Q : Cubature ℝ) :
    integrate1 ev h m1 m2 Q = h ^ 2 • pairQuad Q F ∧
    ∀ q1 q2 : Nat → SP, (∀ k < Q.size, q1 k = m1 (Q.xi k) (h * Q.w k) ∧ q2 k = m2 (Q.xi k) (h * Q.w k)) →
      integrate0 ev q1 q2 Q = h ^ 2 • pairQuad Q F := by
  refine ⟨?_, ?_⟩
  · refine fold_pair Q _ _ _ fun i _ j _ v => ?_
    rw [hev]
    congr 2
    ring
  · intro q1 q2 hq
    refine fold_pair Q _ _ _ fun i hi j hj v => ?_
    rw [(hq i hi).1, (hq j hj).2, hev]
    congr 2
    ring

/-- C45: identical elements. -/
theorem C45_identical (hev : AddsIntegrand ev m1 m1 F) (h : ℝ) (Q : Cubature ℝ) :
    integrate2 ev h m1 Q = h ^ 2 • pairQuad Q (transformed2 F) := by
  have hev' : ∀ x y ws wt v, ev (m1 x ws) (m1 y wt) v = v + (ws * wt) • F (x, y) := hev
  have hp : ∀ t1 t2 t3 t4 : ℝ, pts t1 t2 t3 t4 (2 * 0) = (t1, t2) ∧ pts t1 t2 t3 t4 (2 * 0 + 1) = (t3, t4) ∧
      pts t1 t2 t3 t4 (2 * 1) = (t1, t4) ∧ pts t1 t2 t3 t4 (2 * 1 + 1) = (t3, t2) ∧
      pts t1 t2 t3 t4 (2 * 2) = (t2, t1) ∧ pts t1 t2 t3 t4 (2 * 2 + 1) = (t4, t3) ∧
      pts t1 t2 t3 t4 (2 * 3) = (t2, t3) ∧ pts t1 t2 t3 t4 (2 * 3 + 1) = (t4, t1) :=
    fun _ _ _ _ => ⟨rfl, rfl, rfl, rfl, rfl, rfl, rfl, rfl⟩
  have hr : List.range 4 = [0, 1, 2, 3] := rfl
  refine fold_pair Q _ _ _ fun i _ j _ v => ?_
  simp only [hr, List.foldl_cons, List.foldl_nil, hev', hp, transformed2]
  module

/-- C45: common edge. -/
theorem C45_edge (hev : AddsIntegrand ev m1 m2 F) (h : ℝ) (Q : Cubature ℝ) (r1 r2 : Nat) :
    integrate3 ev h m1 r1 m2 r2 Q = h ^ 2 • pairQuad Q (transformed3 (rotated r1 r2 F)) := by
  have hev' : ∀ x y ws wt v, ev (m1 x ws) (m2 y wt) v = v + (ws * wt) • F (x, y) := hev
  refine fold_pair Q _ _ _ fun i _ j _ v => ?_
  simp only [hev', transformed3, rotated]
  module

/-- C45: common vertex. -/
theorem C45_vertex (hev : AddsIntegrand ev m1 m2 F) (h : ℝ) (Q : Cubature ℝ) (r1 r2 : Nat) :
    integrate4 ev h m1 r1 m2 r2 Q = h ^ 2 • pairQuad Q (transformed4 (rotated r1 r2 F)) := by
  have hev' : ∀ x y ws wt v, ev (m1 x ws) (m2 y wt) v = v + (ws * wt) • F (x, y) := hev
  refine fold_pair Q _ _ _ fun i _ j _ v => ?_
  simp only [hev', transformed4, rotated, mul_comm (Q.xi i).2]
  module

end sums

/-- The intermediate points of the transformations are inside. -/
theorem conv_facts {s u : ℝ} (hs : 0 < s) (hs' : s < 1) (hu : 0 < u) (hu' : u < 1) :
    0 < u * (1 - s) ∧ u * (1 - s) < 1 ∧ 0 < u * (1 - s) + s ∧ u * (1 - s) + s < 1 ∧ 0 < s * u ∧ s * u < 1 ∧ s * u < s := by
  have h1 : 0 < u * (1 - s) := mul_pos hu (by linarith)
  have h2 : 0 < s * u := mul_pos hs hu
  refine ⟨h1, by nlinarith, by linarith, by nlinarith, h2, by nlinarith, by nlinarith⟩

section substitution
variable {E : Type} [NormedAddCommGroup E] [NormedSpace ℝ E]

theorem rotated_integral (F : PointPair → E) (hF : IntegrableOn F Cube) (r1 r2 : Nat) :
    IntegrableOn (rotated r1 r2 F) Cube ∧ ∫ p in Cube, rotated r1 r2 F p = ∫ p in Cube, F p := by
  have pres : MeasurePreserving (fun p : PointPair => (tau p.1.1 p.1.2 r1, tau p.2.1 p.2.2 r2)) volume volume :=
    (tau_preserving r1).prod (tau_preserving r2)
  have e : (fun p : PointPair => (tau p.1.1 p.1.2 r1, tau p.2.1 p.2.2 r2)) ⁻¹' Cube = Cube := by
    have one : ∀ c : Nat, ∀ q : ℝ × ℝ, tau q.1 q.2 c ∈ Set.Icc (0 : ℝ × ℝ) 1 ↔ q ∈ Set.Icc (0 : ℝ × ℝ) 1 := by
      intro c q
      refine ⟨?_, fun hp => (C43_bijective c).1.mapsTo hp⟩
      intro hp
      obtain ⟨⟨h1, h2⟩, h3, h4⟩ := hp
      match c with
      | 0 => exact ⟨⟨h1, h2⟩, h3, h4⟩
      | 1 => simp [tau] at h1 h2 h3 h4; exact ⟨⟨h2, h3⟩, h4, h1⟩
      | 2 => simp [tau] at h1 h2 h3 h4; exact ⟨⟨h3, h4⟩, h1, h2⟩
      | 3 => simp [tau] at h1 h2 h3 h4; exact ⟨⟨h4, h1⟩, h2, h3⟩
      | n + 4 => exact ⟨⟨h1, h2⟩, h3, h4⟩
    have split : ∀ p : PointPair, p ∈ Cube ↔ p.1 ∈ Set.Icc (0 : ℝ × ℝ) 1 ∧ p.2 ∈ Set.Icc (0 : ℝ × ℝ) 1 := by
      intro p
      unfold Cube
      rw [show (0 : PointPair) = ((0 : ℝ × ℝ), (0 : ℝ × ℝ)) from rfl, show (1 : PointPair) = ((1 : ℝ × ℝ), (1 : ℝ × ℝ)) from rfl,
        ← Set.Icc_prod_Icc]
      exact Iff.rfl
    ext p
    rw [Set.mem_preimage, split, split, one, one]
  have hr : MeasurePreserving (fun p : PointPair => (tau p.1.1 p.1.2 r1, tau p.2.1 p.2.2 r2)) (volume.restrict Cube) (volume.restrict Cube) := by
    have := pres.restrict_preimage (s := Cube) measurableSet_Icc
    rwa [e] at this
  have hinj : ∀ c : Nat, Function.Injective fun p : ℝ × ℝ => tau p.1 p.2 c := by
    intro c
    obtain ⟨a, b, hab, ht⟩ := C43_orientation c
    intro p q hpq
    have e := (ht p.1 p.2).symm.trans (hpq.trans (ht q.1 q.2))
    have e1 : (tau 0 0 c).1 + (a * p.1 - b * p.2) = (tau 0 0 c).1 + (a * q.1 - b * q.2) := congrArg Prod.fst e
    have e2 : (tau 0 0 c).2 + (b * p.1 + a * p.2) = (tau 0 0 c).2 + (b * q.1 + a * q.2) := congrArg Prod.snd e
    refine Prod.ext ?_ ?_
    · linear_combination a * e1 + b * e2 + (q.1 - p.1) * hab
    · linear_combination a * e2 - b * e1 + (q.2 - p.2) * hab
  have hemb : MeasurableEmbedding fun p : PointPair => (tau p.1.1 p.1.2 r1, tau p.2.1 p.2.2 r2) := by
    refine pres.measurable.measurableEmbedding ?_
    intro p q hpq
    exact Prod.ext (hinj r1 (congrArg Prod.fst hpq)) (hinj r2 (congrArg Prod.snd hpq))
  exact ⟨(hr.integrable_comp_emb hemb).2 hF, hr.integral_comp hemb F⟩

/-- C45: the coordinate transformations are exact substitutions of variables: for every function that is integrable over the
pairs of points, the transformed function is integrable and has the same integral, for all rotations of the elements.  This
holds for scalar, vector and matrix valued functions. -/
theorem C45_substitution (F : PointPair → E) (hF : IntegrableOn F Cube) (r1 r2 : Nat) :
    (IntegrableOn (transformed2 F) Cube ∧ ∫ p in Cube, transformed2 F p = ∫ p in Cube, F p) ∧
    (IntegrableOn (transformed3 (rotated r1 r2 F)) Cube ∧ ∫ p in Cube, transformed3 (rotated r1 r2 F) p = ∫ p in Cube, F p) ∧
    (IntegrableOn (transformed4 (rotated r1 r2 F)) Cube ∧ ∫ p in Cube, transformed4 (rotated r1 r2 F) p = ∫ p in Cube, F p) := by
  obtain ⟨g1, g2⟩ := rotated_integral F hF r1 r2
  have a := trans2 F hF
  have b := trans3 _ g1
  have c := trans4 _ g1
  refine ⟨⟨a.1, a.2.symm⟩, ⟨b.1, ?_⟩, ⟨c.1, ?_⟩⟩
  · rw [← g2]; exact b.2.symm
  · rw [← g2]; exact c.2.symm

/-- C45: the transformations remove the singularity: if the integrand is bounded by `C / distance`, where the distance is
that of the parameters for identical elements, that of the unfolded elements for a common edge, and the distance to the common
vertex otherwise, the transformed integrand is bounded. -/
theorem C45_bounded (F : PointPair → E) (C : ℝ) (p : PointPair) (hp1 : InSquare p.1) (hp2 : InSquare p.2) :
    ((∀ x y, InSquare x → InSquare y → x ≠ y → ‖F (x, y)‖ ≤ C / max |x.1 - y.1| |x.2 - y.2|) → ‖transformed2 F p‖ ≤ 8 * C) ∧
    ((∀ x y, InSquare x → InSquare y → ‖F (x, y)‖ ≤ C / max |x.1 - (1 - y.1)| (x.2 + y.2)) → ‖transformed3 F p‖ ≤ 6 * C) ∧
    ((∀ x y, InSquare x → InSquare y → ‖F (x, y)‖ ≤ C / max (max x.1 x.2) (max y.1 y.2)) → ‖transformed4 F p‖ ≤ 4 * C) := by
  obtain ⟨s0, s1, t0, t1⟩ := hp1
  obtain ⟨u0, u1, v0, v1⟩ := hp2
  have bd : ∀ (f : E) (s w δ : ℝ), 0 < s → s ≤ δ → 0 ≤ w → w ≤ s → ‖f‖ ≤ C / δ → ‖w • f‖ ≤ C := by
    intro f s w δ hs hδ hw hw' hf
    have hδ0 : 0 < δ := by linarith
    rw [le_div_iff₀ hδ0] at hf
    rw [norm_smul, Real.norm_of_nonneg hw]
    have := norm_nonneg f
    nlinarith
  refine ⟨?_, ?_, ?_⟩
  · intro hF
    obtain ⟨q1, q2, q3, q4, q5, q6, q7⟩ := conv_facts s0 s1 t0 t1
    obtain ⟨c1, c2, c3, c4, -⟩ := conv_facts s0 s1 u0 u1
    obtain ⟨d1, d2, d3, d4, -⟩ := conv_facts q5 q6 v0 v1
    simp only [transformed2, smul_add]
    set s := p.1.1
    set a1 := p.2.1 * (1 - s)
    set a2 := p.2.2 * (1 - s * p.1.2)
    have hw : 0 ≤ s * (1 - s) * (1 - s * p.1.2) := mul_nonneg (mul_nonneg s0.le (by linarith)) (by linarith)
    have hw' : s * (1 - s) * (1 - s * p.1.2) ≤ s := by
      have : (1 - s) * (1 - s * p.1.2) ≤ 1 := by nlinarith
      nlinarith
    have key : ∀ x y : ℝ × ℝ, InSquare x → InSquare y → s ≤ max |x.1 - y.1| |x.2 - y.2| →
        ‖(s * (1 - s) * (1 - s * p.1.2)) • F (x, y)‖ ≤ C := by
      intro x y hx hy hd
      refine bd _ s _ _ s0 hd hw hw' (hF x y hx hy ?_)
      rintro rfl
      simp at hd
      linarith
    have k1 := key (a1, a2) (a1 + s, a2 + s * p.1.2) ⟨c1, c2, d1, d2⟩ ⟨c3, c4, d3, d4⟩ (le_max_of_le_left (by simp [abs_of_pos s0]))
    have k2 := key (a1 + s, a2 + s * p.1.2) (a1, a2) ⟨c3, c4, d3, d4⟩ ⟨c1, c2, d1, d2⟩ (le_max_of_le_left (by simp [abs_of_pos s0]))
    have k3 := key (a1, a2 + s * p.1.2) (a1 + s, a2) ⟨c1, c2, d3, d4⟩ ⟨c3, c4, d1, d2⟩ (le_max_of_le_left (by simp [abs_of_pos s0]))
    have k4 := key (a1 + s, a2) (a1, a2 + s * p.1.2) ⟨c3, c4, d1, d2⟩ ⟨c1, c2, d3, d4⟩ (le_max_of_le_left (by simp [abs_of_pos s0]))
    have k5 := key (a2, a1) (a2 + s * p.1.2, a1 + s) ⟨d1, d2, c1, c2⟩ ⟨d3, d4, c3, c4⟩ (le_max_of_le_right (by simp [abs_of_pos s0]))
    have k6 := key (a2 + s * p.1.2, a1 + s) (a2, a1) ⟨d3, d4, c3, c4⟩ ⟨d1, d2, c1, c2⟩ (le_max_of_le_right (by simp [abs_of_pos s0]))
    have k7 := key (a2, a1 + s) (a2 + s * p.1.2, a1) ⟨d1, d2, c3, c4⟩ ⟨d3, d4, c1, c2⟩ (le_max_of_le_right (by simp [abs_of_pos s0]))
    have k8 := key (a2 + s * p.1.2, a1) (a2, a1 + s) ⟨d3, d4, c1, c2⟩ ⟨d1, d2, c3, c4⟩ (le_max_of_le_right (by simp [abs_of_pos s0]))
    refine (norm_add_le_of_le (norm_add_le_of_le (norm_add_le_of_le (norm_add_le_of_le (norm_add_le_of_le (norm_add_le_of_le
      (norm_add_le_of_le k1 k2) k3) k4) k5) k6) k7) k8).trans ?_
    linarith
  · intro hF
    obtain ⟨su0, su1, -⟩ := (conv_facts t0 t1 u0 u1).2.2.2.2
    obtain ⟨sv0, sv1, -⟩ := (conv_facts t0 t1 v0 v1).2.2.2.2
    have r0 : 0 < 1 - p.1.1 := by linarith
    have r1 : 1 - p.1.1 < 1 := by linarith
    obtain ⟨a1, a2, a3, a4, -⟩ := conv_facts t0 t1 s0 s1
    obtain ⟨b1, b2, b3, b4, -⟩ := conv_facts t0 t1 r0 r1
    obtain ⟨c1, c2, c3, c4, -⟩ := conv_facts su0 su1 s0 s1
    obtain ⟨d1, d2, d3, d4, -⟩ := conv_facts su0 su1 r0 r1
    have i1 : ∀ x y : ℝ, 0 < x → x < 1 → 0 < y → y < 1 → InSquare (x, y) := fun x y h1 h2 h3 h4 => ⟨h1, h2, h3, h4⟩
    simp only [transformed3, smul_add]
    set t := p.1.1
    set s := p.1.2
    set su := s * p.2.1
    set sv := s * p.2.2
    have hw1 : 0 ≤ s ^ 2 * (1 - s) := mul_nonneg (by positivity) (by linarith)
    have hw1' : s ^ 2 * (1 - s) ≤ s := by nlinarith [mul_pos t0 t0]
    have hw2 : 0 ≤ s ^ 2 * (1 - su) := mul_nonneg (by positivity) (by linarith)
    have hw2' : s ^ 2 * (1 - su) ≤ s := by nlinarith [mul_pos t0 t0, mul_pos (mul_pos t0 t0) su0]
    have key : ∀ (w : ℝ) (x y : ℝ × ℝ), 0 ≤ w → w ≤ s → InSquare x → InSquare y → s ≤ max |x.1 - (1 - y.1)| (x.2 + y.2) →
        ‖w • F (x, y)‖ ≤ C := fun w x y hw hw' hx hy hd => bd _ s _ _ t0 hd hw hw' (hF x y hx hy)
    have k1 := key _ (t * (1 - s), su) ((1 - t) * (1 - s), sv) hw1 hw1' (i1 _ _ a1 a2 su0 su1) (i1 _ _ b1 b2 sv0 sv1)
      (le_max_of_le_left (by
        rw [show t * (1 - s) - (1 - (1 - t) * (1 - s)) = -s by ring, abs_neg, abs_of_pos t0]))
    have k2 := key _ (1 - t * (1 - s), su) (1 - (1 - t) * (1 - s), sv) hw1 hw1' (i1 _ _ (by linarith) (by linarith) su0 su1)
      (i1 _ _ (by linarith) (by linarith) sv0 sv1)
      (le_max_of_le_left (by
        rw [show 1 - t * (1 - s) - (1 - (1 - (1 - t) * (1 - s))) = s by ring, abs_of_pos t0]))
    have k3 := key _ (t * (1 - su), s) ((1 - t) * (1 - su), sv) hw2 hw2' (i1 _ _ c1 c2 t0 t1) (i1 _ _ d1 d2 sv0 sv1)
      (le_max_of_le_right (by simp only; linarith))
    have k4 := key _ (1 - t * (1 - su), s) (1 - (1 - t) * (1 - su), sv) hw2 hw2' (i1 _ _ (by linarith) (by linarith) t0 t1)
      (i1 _ _ (by linarith) (by linarith) sv0 sv1) (le_max_of_le_right (by simp only; linarith))
    have k5 := key _ ((1 - t) * (1 - su), sv) (t * (1 - su), s) hw2 hw2' (i1 _ _ d1 d2 sv0 sv1) (i1 _ _ c1 c2 t0 t1)
      (le_max_of_le_right (by simp only; linarith))
    have k6 := key _ (1 - (1 - t) * (1 - su), sv) (1 - t * (1 - su), s) hw2 hw2' (i1 _ _ (by linarith) (by linarith) sv0 sv1)
      (i1 _ _ (by linarith) (by linarith) t0 t1) (le_max_of_le_right (by simp only; linarith))
    refine (norm_add_le_of_le (norm_add_le_of_le k1 k2) (norm_add_le_of_le (norm_add_le_of_le
      (norm_add_le_of_le k3 k4) k5) k6)).trans ?_
    linarith
  · intro hF
    obtain ⟨st0, st1, -⟩ := (conv_facts s0 s1 t0 t1).2.2.2.2
    obtain ⟨su0, su1, -⟩ := (conv_facts s0 s1 u0 u1).2.2.2.2
    obtain ⟨sv0, sv1, -⟩ := (conv_facts s0 s1 v0 v1).2.2.2.2
    have i1 : ∀ x y : ℝ, 0 < x → x < 1 → 0 < y → y < 1 → InSquare (x, y) := fun x y h1 h2 h3 h4 => ⟨h1, h2, h3, h4⟩
    simp only [transformed4, smul_add]
    set s := p.1.1
    have hw : 0 ≤ s ^ 3 := by positivity
    have hw' : s ^ 3 ≤ s := by
      have : s ^ 2 ≤ 1 := by nlinarith
      nlinarith
    have key : ∀ (x y : ℝ × ℝ), InSquare x → InSquare y → s ≤ max (max x.1 x.2) (max y.1 y.2) →
        ‖s ^ 3 • F (x, y)‖ ≤ C := fun x y hx hy hd => bd _ s _ _ s0 hd hw hw' (hF x y hx hy)
    have k1 := key (s, s * p.1.2) (s * p.2.1, s * p.2.2) (i1 _ _ s0 s1 st0 st1) (i1 _ _ su0 su1 sv0 sv1)
      (le_max_of_le_left (le_max_left _ _))
    have k2 := key (s * p.1.2, s) (s * p.2.1, s * p.2.2) (i1 _ _ st0 st1 s0 s1) (i1 _ _ su0 su1 sv0 sv1)
      (le_max_of_le_left (le_max_right _ _))
    have k3 := key (s * p.2.1, s * p.2.2) (s, s * p.1.2) (i1 _ _ su0 su1 sv0 sv1) (i1 _ _ s0 s1 st0 st1)
      (le_max_of_le_right (le_max_left _ _))
    have k4 := key (s * p.2.1, s * p.2.2) (s * p.1.2, s) (i1 _ _ su0 su1 sv0 sv1) (i1 _ _ st0 st1 s0 s1)
      (le_max_of_le_right (le_max_right _ _))
    refine (norm_add_le_of_le (norm_add_le_of_le (norm_add_le_of_le k1 k2) k3) k4).trans ?_
    linarith

end substitution

section points
variable {SP M : Type} [AddCommGroup M] [Module ℝ M] {ev ev' : SP → SP → M → M} {m1 m2 : ℝ × ℝ → ℝ → SP}

/-- The singular integrand `1 / distance` meets the first hypothesis. -/
example : ∀ x y : ℝ × ℝ, InSquare x → InSquare y → x ≠ y →
    ‖(fun p : PointPair => 1 / max |p.1.1 - p.2.1| |p.1.2 - p.2.2|) (x, y)‖ ≤ 1 / max |x.1 - y.1| |x.2 - y.2| := by
  intro x y _ _ _
  rw [Real.norm_of_nonneg (by positivity)]

theorem fold_ext (Q : Cubature ℝ) (st st' : Nat → Nat → M → M) (h : ∀ i < Q.size, ∀ j < Q.size, ∀ v, st i j v = st' i j v) :
    (List.range Q.size).foldl (fun v i => (List.range Q.size).foldl (fun v j => st i j v) v) 0 =
    (List.range Q.size).foldl (fun v i => (List.range Q.size).foldl (fun v j => st' i j v) v) 0 :=
  List.foldl_ext _ _ _ fun _ i hi => List.foldl_ext _ _ _ fun v j hj => h i (List.mem_range.1 hi) j (List.mem_range.1 hj) v

/-- C45: with interior quadrature nodes the integrand is evaluated only at pairs of points inside the elements, and for
identical elements only at pairs of different points: integrands which agree on such pairs give the same result. -/
theorem C45_points (h : ℝ) (Q : Cubature ℝ) (hQ : ∀ i < Q.size, InSquare (Q.xi i)) (r1 r2 : Nat) :
    ((∀ x y ws wt v, InSquare x → InSquare y → x ≠ y → ev (m1 x ws) (m1 y wt) v = ev' (m1 x ws) (m1 y wt) v) →
      integrate2 ev h m1 Q = integrate2 ev' h m1 Q) ∧
    ((∀ x y ws wt v, InSquare x → InSquare y → ev (m1 x ws) (m2 y wt) v = ev' (m1 x ws) (m2 y wt) v) →
      integrate1 ev h m1 m2 Q = integrate1 ev' h m1 m2 Q ∧
      integrate3 ev h m1 r1 m2 r2 Q = integrate3 ev' h m1 r1 m2 r2 Q ∧
      integrate4 ev h m1 r1 m2 r2 Q = integrate4 ev' h m1 r1 m2 r2 Q) := by
  have i1 : ∀ x y : ℝ, 0 < x → x < 1 → 0 < y → y < 1 → InSquare (x, y) := fun x y h1 h2 h3 h4 => ⟨h1, h2, h3, h4⟩
  have rot : ∀ (x y : ℝ) (r : Nat), 0 < x → x < 1 → 0 < y → y < 1 → InSquare (tau x y r) :=
    fun x y r h1 h2 h3 h4 => ((C43_bijective r).2 (x, y)).2 ⟨h1, h2, h3, h4⟩
  refine ⟨?_, ?_⟩
  · intro he
    refine fold_ext Q _ _ fun i hi j hj v => ?_
    obtain ⟨s0, s1, t0, t1⟩ := hQ i hi
    obtain ⟨u0, u1, v0, v1⟩ := hQ j hj
    obtain ⟨q1, q2, q3, q4, q5, q6, q7⟩ := conv_facts s0 s1 t0 t1
    obtain ⟨c1, c2, c3, c4, -⟩ := conv_facts s0 s1 u0 u1
    obtain ⟨d1, d2, d3, d4, -⟩ := conv_facts q5 q6 v0 v1
    have hp : ∀ t1 t2 t3 t4 : ℝ, pts t1 t2 t3 t4 (2 * 0) = (t1, t2) ∧ pts t1 t2 t3 t4 (2 * 0 + 1) = (t3, t4) ∧
        pts t1 t2 t3 t4 (2 * 1) = (t1, t4) ∧ pts t1 t2 t3 t4 (2 * 1 + 1) = (t3, t2) ∧
        pts t1 t2 t3 t4 (2 * 2) = (t2, t1) ∧ pts t1 t2 t3 t4 (2 * 2 + 1) = (t4, t3) ∧
        pts t1 t2 t3 t4 (2 * 3) = (t2, t3) ∧ pts t1 t2 t3 t4 (2 * 3 + 1) = (t4, t1) :=
      fun _ _ _ _ => ⟨rfl, rfl, rfl, rfl, rfl, rfl, rfl, rfl⟩
    have hr : List.range 4 = [0, 1, 2, 3] := rfl
    simp only [hr, List.foldl_cons, List.foldl_nil, hp]
    have n1 : (Q.xi j).1 * (1 - (Q.xi i).1) ≠ (Q.xi j).1 * (1 - (Q.xi i).1) + (Q.xi i).1 := by linarith
    rw [he _ _ _ _ _ (i1 _ _ c1 c2 d1 d2) (i1 _ _ c3 c4 d3 d4) fun e => n1 (Prod.mk.inj e).1,
      he _ _ _ _ _ (i1 _ _ c3 c4 d3 d4) (i1 _ _ c1 c2 d1 d2) fun e => n1 (Prod.mk.inj e).1.symm,
      he _ _ _ _ _ (i1 _ _ c1 c2 d3 d4) (i1 _ _ c3 c4 d1 d2) fun e => n1 (Prod.mk.inj e).1,
      he _ _ _ _ _ (i1 _ _ c3 c4 d1 d2) (i1 _ _ c1 c2 d3 d4) fun e => n1 (Prod.mk.inj e).1.symm,
      he _ _ _ _ _ (i1 _ _ d1 d2 c1 c2) (i1 _ _ d3 d4 c3 c4) fun e => n1 (Prod.mk.inj e).2,
      he _ _ _ _ _ (i1 _ _ d3 d4 c3 c4) (i1 _ _ d1 d2 c1 c2) fun e => n1 (Prod.mk.inj e).2.symm,
      he _ _ _ _ _ (i1 _ _ d1 d2 c3 c4) (i1 _ _ d3 d4 c1 c2) fun e => n1 (Prod.mk.inj e).2.symm,
      he _ _ _ _ _ (i1 _ _ d3 d4 c1 c2) (i1 _ _ d1 d2 c3 c4) fun e => n1 (Prod.mk.inj e).2]
  · intro he
    refine ⟨?_, ?_, ?_⟩
    · exact fold_ext Q _ _ fun i hi j hj v => he _ _ _ _ _ (hQ i hi) (hQ j hj)
    · refine fold_ext Q _ _ fun i hi j hj v => ?_
      obtain ⟨s0, s1, t0, t1⟩ := hQ i hi
      obtain ⟨u0, u1, v0, v1⟩ := hQ j hj
      obtain ⟨su0, su1, -⟩ := (conv_facts t0 t1 u0 u1).2.2.2.2
      obtain ⟨sv0, sv1, -⟩ := (conv_facts t0 t1 v0 v1).2.2.2.2
      have r0 : 0 < 1 - (Q.xi i).1 := by linarith
      have r1 : 1 - (Q.xi i).1 < 1 := by linarith
      obtain ⟨a1, a2, a3, a4, -⟩ := conv_facts t0 t1 s0 s1
      obtain ⟨b1, b2, b3, b4, -⟩ := conv_facts t0 t1 r0 r1
      obtain ⟨c1, c2, c3, c4, -⟩ := conv_facts su0 su1 s0 s1
      obtain ⟨d1, d2, d3, d4, -⟩ := conv_facts su0 su1 r0 r1
      simp only
      rw [he _ _ _ _ _ (rot _ _ _ a1 a2 su0 su1) (rot _ _ _ b1 b2 sv0 sv1),
        he _ _ _ _ _ (rot _ _ _ (by linarith) (by linarith) su0 su1) (rot _ _ _ (by linarith) (by linarith) sv0 sv1),
        he _ _ _ _ _ (rot _ _ _ c1 c2 t0 t1) (rot _ _ _ d1 d2 sv0 sv1),
        he _ _ _ _ _ (rot _ _ _ (by linarith) (by linarith) t0 t1) (rot _ _ _ (by linarith) (by linarith) sv0 sv1),
        he _ _ _ _ _ (rot _ _ _ d1 d2 sv0 sv1) (rot _ _ _ c1 c2 t0 t1),
        he _ _ _ _ _ (rot _ _ _ (by linarith) (by linarith) sv0 sv1) (rot _ _ _ (by linarith) (by linarith) t0 t1)]
    · refine fold_ext Q _ _ fun i hi j hj v => ?_
      obtain ⟨s0, s1, t0, t1⟩ := hQ i hi
      obtain ⟨u0, u1, v0, v1⟩ := hQ j hj
      obtain ⟨st0, st1, -⟩ := (conv_facts s0 s1 t0 t1).2.2.2.2
      obtain ⟨su0, su1, -⟩ := (conv_facts s0 s1 u0 u1).2.2.2.2
      obtain ⟨sv0, sv1, -⟩ := (conv_facts s0 s1 v0 v1).2.2.2.2
      rw [mul_comm] at st0 st1
      simp only
      rw [he _ _ _ _ _ (rot _ _ _ s0 s1 st0 st1) (rot _ _ _ su0 su1 sv0 sv1),
        he _ _ _ _ _ (rot _ _ _ st0 st1 s0 s1) (rot _ _ _ su0 su1 sv0 sv1),
        he _ _ _ _ _ (rot _ _ _ su0 su1 sv0 sv1) (rot _ _ _ s0 s1 st0 st1),
        he _ _ _ _ _ (rot _ _ _ su0 su1 sv0 sv1) (rot _ _ _ st0 st1 s0 s1)]

end points

section exact

theorem IsPoly.add {a b : Nat} {f g : ℝ → ℝ} (hf : IsPoly a f) (hg : IsPoly b g) : IsPoly (max a b) (fun x => f x + g x) := by
  obtain ⟨p, hp, hp'⟩ := hf
  obtain ⟨q, hq, hq'⟩ := hg
  exact ⟨p + q, (Polynomial.natDegree_add_le _ _).trans (max_le_max hp hq), fun x => by simp [hp', hq']⟩

theorem IsPoly.mul {a b : Nat} {f g : ℝ → ℝ} (hf : IsPoly a f) (hg : IsPoly b g) : IsPoly (a + b) (fun x => f x * g x) := by
  obtain ⟨p, hp, hp'⟩ := hf
  obtain ⟨q, hq, hq'⟩ := hg
  exact ⟨p * q, Polynomial.natDegree_mul_le.trans (add_le_add hp hq), fun x => by simp [hp', hq']⟩

theorem IsPoly.mono {a b : Nat} {f : ℝ → ℝ} (hf : IsPoly a f) (h : a ≤ b) : IsPoly b f := by
  obtain ⟨p, hp, hp'⟩ := hf
  exact ⟨p, hp.trans h, hp'⟩

theorem IsPoly.affine {f : ℝ → ℝ} (h : ∀ x, f x = f 0 + x * (f 1 - f 0)) : IsPoly 1 f :=
  ⟨Polynomial.C (f 0) + Polynomial.X * Polynomial.C (f 1 - f 0), by
    refine (Polynomial.natDegree_add_le _ _).trans ?_
    simp only [Polynomial.natDegree_C, zero_le, sup_of_le_right]
    refine Polynomial.natDegree_mul_le.trans ?_
    simp, fun x => by simp only [Polynomial.eval_add, Polynomial.eval_mul, Polynomial.eval_C, Polynomial.eval_X]; exact h x⟩

/-- A function whose restriction to every line is a polynomial of degree at most `d`. -/
def PolyOnLines (d : Nat) (F : PointPair → ℝ) : Prop := ∀ a b : PointPair, IsPoly d fun x => F (a + x • b)

theorem PolyOnLines.curve {d : Nat} {F : PointPair → ℝ} (h : PolyOnLines d F) {f1 f2 f3 f4 : ℝ → ℝ}
    (h1 : ∀ x, f1 x = f1 0 + x * (f1 1 - f1 0)) (h2 : ∀ x, f2 x = f2 0 + x * (f2 1 - f2 0))
    (h3 : ∀ x, f3 x = f3 0 + x * (f3 1 - f3 0)) (h4 : ∀ x, f4 x = f4 0 + x * (f4 1 - f4 0)) :
    IsPoly d fun x => F ((f1 x, f2 x), (f3 x, f4 x)) := by
  obtain ⟨p, hp, hp'⟩ := h ((f1 0, f2 0), (f3 0, f4 0)) ((f1 1 - f1 0, f2 1 - f2 0), (f3 1 - f3 0, f4 1 - f4 0))
  refine ⟨p, hp, fun x => ?_⟩
  rw [← hp' x]
  exact congrArg F (Prod.ext (Prod.ext (h1 x) (h2 x)) (Prod.ext (h3 x) (h4 x)))

theorem PolyOnLines.rotated {d : Nat} {F : PointPair → ℝ} (h : PolyOnLines d F) (r1 r2 : Nat) :
    PolyOnLines d (rotated r1 r2 F) := by
  intro a b
  have aff : ∀ (r : Nat) (x1 x2 y1 y2 x : ℝ), tau (x1 + x * y1) (x2 + x * y2) r =
      tau x1 x2 r + x • (tau (x1 + y1) (x2 + y2) r - tau x1 x2 r) := by
    intro r x1 x2 y1 y2 x
    match r with
    | 0 => simp [tau]
    | 1 => simp [tau]; ring
    | 2 => simp [tau]; constructor <;> ring
    | 3 => simp [tau]; ring
    | n + 4 => simp [tau]
  obtain ⟨p, hp, hp'⟩ := h (tau a.1.1 a.1.2 r1, tau a.2.1 a.2.2 r2)
    (tau (a.1.1 + b.1.1) (a.1.2 + b.1.2) r1 - tau a.1.1 a.1.2 r1, tau (a.2.1 + b.2.1) (a.2.2 + b.2.2) r2 - tau a.2.1 a.2.2 r2)
  refine ⟨p, hp, fun x => ?_⟩
  rw [← hp' x]
  simp only [Props.rotated]
  refine congrArg F (Prod.ext ?_ ?_)
  · exact aff r1 a.1.1 a.1.2 b.1.1 b.1.2 x
  · exact aff r2 a.2.1 a.2.2 b.2.1 b.2.2 x

/-- The function of two points given by a polynomial in four variables. -/
noncomputable def polyFn (P : MvPolynomial (Fin 4) ℝ) (p : PointPair) : ℝ :=
  MvPolynomial.eval ![p.1.1, p.1.2, p.2.1, p.2.2] P

theorem polyFn_lines (P : MvPolynomial (Fin 4) ℝ) (d : Nat) (hP : P.totalDegree ≤ d) : PolyOnLines d (polyFn P) := by
  intro a b
  let A : Fin 4 → ℝ := ![a.1.1, a.1.2, a.2.1, a.2.2]
  let B : Fin 4 → ℝ := ![b.1.1, b.1.2, b.2.1, b.2.2]
  let g : Fin 4 → Polynomial ℝ := fun i => Polynomial.C (A i) + Polynomial.X * Polynomial.C (B i)
  have hg : ∀ i, (g i).natDegree ≤ 1 := by
    intro i
    refine (Polynomial.natDegree_add_le _ _).trans ?_
    simp only [Polynomial.natDegree_C, zero_le, sup_of_le_right]
    refine Polynomial.natDegree_mul_le.trans ?_
    simp
  refine ⟨MvPolynomial.aeval g P, ?_, ?_⟩
  · have := MvPolynomial.aeval_natDegree_le P hP g hg
    simpa using this
  · intro x
    have e : Polynomial.eval x (MvPolynomial.aeval g P) = MvPolynomial.aeval (fun i => Polynomial.eval x (g i)) P := by
      have := MvPolynomial.comp_aeval_apply (Polynomial.aeval x : Polynomial ℝ →ₐ[ℝ] ℝ) (f := g) P
      simpa [Polynomial.coe_aeval_eq_eval] using this
    rw [e, MvPolynomial.aeval_eq_eval]
    show MvPolynomial.eval _ P = MvPolynomial.eval _ P
    congr 2
    funext i
    fin_cases i <;> (simp [g, A, B]; ring)

theorem polyFn_continuous (P : MvPolynomial (Fin 4) ℝ) : Continuous (polyFn P) := by
  refine (MvPolynomial.continuous_eval P).comp ?_
  refine continuous_pi fun i => ?_
  fin_cases i <;> (dsimp; fun_prop)

/-- Polynomial of degree at most `D` in each of the four variables. -/
structure SepPoly (D : Nat) (G : PointPair → ℝ) : Prop where
  v1 : ∀ b c d, IsPoly D fun x => G ((x, b), (c, d))
  v2 : ∀ a c d, IsPoly D fun x => G ((a, x), (c, d))
  v3 : ∀ a b d, IsPoly D fun x => G ((a, b), (x, d))
  v4 : ∀ a b c, IsPoly D fun x => G ((a, b), (c, x))

theorem exact4 (q : Quad1 ℝ) (D : Nat) (h : ExactTo q D) (G : PointPair → ℝ) (hG : SepPoly D G) (hc : Continuous G) :
    pairQuad (tensorRule q) G = ∫ p in Cube, G p := by
  let T := tensorRule q
  have inner : ∀ a b, ∑ j ∈ range T.size, T.w j * G ((a, b), T.xi j) = ∫ x in (0:ℝ)..1, ∫ y in (0:ℝ)..1, G ((a, b), (x, y)) :=
    fun a b => C46_exact q D h (fun x y => G ((a, b), (x, y))) (fun y => hG.v3 a b y) (fun x => hG.v4 a b x)
  have outer := C46_exact q D h (fun a b => ∑ j ∈ range T.size, T.w j * G ((a, b), T.xi j))
    (fun b => IsPoly.sum (range T.size) T.w (fun j x => G ((x, b), T.xi j)) fun j _ => hG.v1 b _ _)
    (fun a => IsPoly.sum (range T.size) T.w (fun j x => G ((a, x), T.xi j)) fun j _ => hG.v2 a _ _)
  have e1 : pairQuad T G = ∑ k ∈ range T.size, T.w k * ∑ j ∈ range T.size, T.w j * G (T.xi k, T.xi j) := by
    refine sum_congr rfl fun i _ => ?_
    rw [mul_sum]
    exact sum_congr rfl fun j _ => by rw [smul_eq_mul]; ring
  have hint : Integrable G μ4 := hc.integrableOn_Icc
  have hv : ∀ f : ℝ → ℝ, ∫ x in (0:ℝ)..1, f x = ∫ x, f x ∂μ1 := fun f => intervalIntegral.integral_of_le zero_le_one
  have fin1 : ∀ f : ℝ × ℝ → ℝ, Continuous f → Integrable f (μ1.prod μ1) := by
    intro f hf
    have e : μ1.prod μ1 = volume.restrict (Set.Icc (0 : ℝ × ℝ) 1) := by
      have e : μ1 = volume.restrict (Set.Icc 0 1) := Measure.restrict_congr_set Ioc_ae_eq_Icc
      rw [e, Measure.prod_restrict, Set.Icc_prod_Icc]
      rfl
    rw [e]
    exact hf.integrableOn_Icc
  rw [e1]
  refine outer.trans ?_
  simp only [inner, hv]
  show _ = ∫ p, G p ∂μ4
  rw [μ4_eq] at hint ⊢
  rw [integral_prod _ hint]
  have e2 : ∀ x : ℝ × ℝ, ∫ y, G (x, y) ∂(μ1.prod μ1) = ∫ c, ∫ d, G (x, (c, d)) ∂μ1 ∂μ1 := fun x =>
    integral_prod _ (fin1 (fun y => G (x, y)) (by fun_prop))
  have e3 := integral_prod _ hint.integral_prod_left
  rw [e3]
  simp only [e2]

macro "aff" : tactic => `(tactic| (intro x; ring))

theorem IsPoly.add' {d : Nat} {f g : ℝ → ℝ} (hf : IsPoly d f) (hg : IsPoly d g) : IsPoly d (fun x => f x + g x) := by
  have := hf.add hg
  rwa [max_self] at this

theorem IsPoly.cubic {f : ℝ → ℝ} (c0 c1 c2 c3 : ℝ) (h : ∀ x, f x = c0 + c1 * x + c2 * x ^ 2 + c3 * x ^ 3) : IsPoly 3 f := by
  refine ⟨Polynomial.C c0 + Polynomial.C c1 * Polynomial.X + Polynomial.C c2 * Polynomial.X ^ 2 +
    Polynomial.C c3 * Polynomial.X ^ 3, ?_, fun x => by simp [h]⟩
  compute_degree

theorem sep2 {d : Nat} {F : PointPair → ℝ} (h : PolyOnLines d F) : SepPoly (d + 3) (transformed2 F) := by
  constructor
  · intro b c e
    refine IsPoly.mono (a := 3 + d) (IsPoly.mul (IsPoly.cubic (f := fun x => x * (1 - x) * (1 - x * b)) 0 1 (-(1 + b)) b (by aff)) (IsPoly.add' (IsPoly.add' (IsPoly.add' (IsPoly.add' (IsPoly.add' (IsPoly.add' (IsPoly.add' (h.curve ?_ ?_ ?_ ?_) (h.curve ?_ ?_ ?_ ?_)) (h.curve ?_ ?_ ?_ ?_)) (h.curve ?_ ?_ ?_ ?_)) (h.curve ?_ ?_ ?_ ?_)) (h.curve ?_ ?_ ?_ ?_)) (h.curve ?_ ?_ ?_ ?_)) (h.curve ?_ ?_ ?_ ?_))) ?_
    on_goal -1 => omega
    all_goals aff
  · intro a c e
    refine IsPoly.mono (a := 3 + d) (IsPoly.mul ((IsPoly.affine (f := fun x => a * (1 - a) * (1 - a * x)) (by aff)).mono (by omega : 1 ≤ 3)) (IsPoly.add' (IsPoly.add' (IsPoly.add' (IsPoly.add' (IsPoly.add' (IsPoly.add' (IsPoly.add' (h.curve ?_ ?_ ?_ ?_) (h.curve ?_ ?_ ?_ ?_)) (h.curve ?_ ?_ ?_ ?_)) (h.curve ?_ ?_ ?_ ?_)) (h.curve ?_ ?_ ?_ ?_)) (h.curve ?_ ?_ ?_ ?_)) (h.curve ?_ ?_ ?_ ?_)) (h.curve ?_ ?_ ?_ ?_))) ?_
    on_goal -1 => omega
    all_goals aff
  · intro a b e
    refine IsPoly.mono (a := 3 + d) (IsPoly.mul ((IsPoly.affine (f := fun x => a * (1 - a) * (1 - a * b)) (by aff)).mono (by omega : 1 ≤ 3)) (IsPoly.add' (IsPoly.add' (IsPoly.add' (IsPoly.add' (IsPoly.add' (IsPoly.add' (IsPoly.add' (h.curve ?_ ?_ ?_ ?_) (h.curve ?_ ?_ ?_ ?_)) (h.curve ?_ ?_ ?_ ?_)) (h.curve ?_ ?_ ?_ ?_)) (h.curve ?_ ?_ ?_ ?_)) (h.curve ?_ ?_ ?_ ?_)) (h.curve ?_ ?_ ?_ ?_)) (h.curve ?_ ?_ ?_ ?_))) ?_
    on_goal -1 => omega
    all_goals aff
  · intro a b c
    refine IsPoly.mono (a := 3 + d) (IsPoly.mul ((IsPoly.affine (f := fun x => a * (1 - a) * (1 - a * b)) (by aff)).mono (by omega : 1 ≤ 3)) (IsPoly.add' (IsPoly.add' (IsPoly.add' (IsPoly.add' (IsPoly.add' (IsPoly.add' (IsPoly.add' (h.curve ?_ ?_ ?_ ?_) (h.curve ?_ ?_ ?_ ?_)) (h.curve ?_ ?_ ?_ ?_)) (h.curve ?_ ?_ ?_ ?_)) (h.curve ?_ ?_ ?_ ?_)) (h.curve ?_ ?_ ?_ ?_)) (h.curve ?_ ?_ ?_ ?_)) (h.curve ?_ ?_ ?_ ?_))) ?_
    on_goal -1 => omega
    all_goals aff

theorem sep3 {d : Nat} {F : PointPair → ℝ} (h : PolyOnLines d F) : SepPoly (d + 3) (transformed3 F) := by
  constructor
  · intro b c e
    refine IsPoly.mono (a := 3 + d) (IsPoly.add' (IsPoly.mul ((IsPoly.affine (f := fun x => b ^ 2 * (1 - b)) (by aff)).mono (by omega : 1 ≤ 3)) (IsPoly.add' (h.curve ?_ ?_ ?_ ?_) (h.curve ?_ ?_ ?_ ?_))) (IsPoly.mul ((IsPoly.affine (f := fun x => b ^ 2 * (1 - b * c)) (by aff)).mono (by omega : 1 ≤ 3)) (IsPoly.add' (IsPoly.add' (IsPoly.add' (h.curve ?_ ?_ ?_ ?_) (h.curve ?_ ?_ ?_ ?_)) (h.curve ?_ ?_ ?_ ?_)) (h.curve ?_ ?_ ?_ ?_)))) ?_
    on_goal -1 => omega
    all_goals aff
  · intro a c e
    refine IsPoly.mono (a := 3 + d) (IsPoly.add' (IsPoly.mul (IsPoly.cubic (f := fun x => x ^ 2 * (1 - x)) 0 0 1 (-1) (by aff)) (IsPoly.add' (h.curve ?_ ?_ ?_ ?_) (h.curve ?_ ?_ ?_ ?_))) (IsPoly.mul (IsPoly.cubic (f := fun x => x ^ 2 * (1 - x * c)) 0 0 1 (-c) (by aff)) (IsPoly.add' (IsPoly.add' (IsPoly.add' (h.curve ?_ ?_ ?_ ?_) (h.curve ?_ ?_ ?_ ?_)) (h.curve ?_ ?_ ?_ ?_)) (h.curve ?_ ?_ ?_ ?_)))) ?_
    on_goal -1 => omega
    all_goals aff
  · intro a b e
    refine IsPoly.mono (a := 3 + d) (IsPoly.add' (IsPoly.mul ((IsPoly.affine (f := fun x => b ^ 2 * (1 - b)) (by aff)).mono (by omega : 1 ≤ 3)) (IsPoly.add' (h.curve ?_ ?_ ?_ ?_) (h.curve ?_ ?_ ?_ ?_))) (IsPoly.mul ((IsPoly.affine (f := fun x => b ^ 2 * (1 - b * x)) (by aff)).mono (by omega : 1 ≤ 3)) (IsPoly.add' (IsPoly.add' (IsPoly.add' (h.curve ?_ ?_ ?_ ?_) (h.curve ?_ ?_ ?_ ?_)) (h.curve ?_ ?_ ?_ ?_)) (h.curve ?_ ?_ ?_ ?_)))) ?_
    on_goal -1 => omega
    all_goals aff
  · intro a b c
    refine IsPoly.mono (a := 3 + d) (IsPoly.add' (IsPoly.mul ((IsPoly.affine (f := fun x => b ^ 2 * (1 - b)) (by aff)).mono (by omega : 1 ≤ 3)) (IsPoly.add' (h.curve ?_ ?_ ?_ ?_) (h.curve ?_ ?_ ?_ ?_))) (IsPoly.mul ((IsPoly.affine (f := fun x => b ^ 2 * (1 - b * c)) (by aff)).mono (by omega : 1 ≤ 3)) (IsPoly.add' (IsPoly.add' (IsPoly.add' (h.curve ?_ ?_ ?_ ?_) (h.curve ?_ ?_ ?_ ?_)) (h.curve ?_ ?_ ?_ ?_)) (h.curve ?_ ?_ ?_ ?_)))) ?_
    on_goal -1 => omega
    all_goals aff

theorem sep4 {d : Nat} {F : PointPair → ℝ} (h : PolyOnLines d F) : SepPoly (d + 3) (transformed4 F) := by
  constructor
  · intro b c e
    refine IsPoly.mono (a := 3 + d) (IsPoly.mul (IsPoly.cubic (f := fun x => x ^ 3) 0 0 0 1 (by aff)) (IsPoly.add' (IsPoly.add' (IsPoly.add' (h.curve ?_ ?_ ?_ ?_) (h.curve ?_ ?_ ?_ ?_)) (h.curve ?_ ?_ ?_ ?_)) (h.curve ?_ ?_ ?_ ?_))) ?_
    on_goal -1 => omega
    all_goals aff
  · intro a c e
    refine IsPoly.mono (a := 3 + d) (IsPoly.mul ((IsPoly.affine (f := fun x => a ^ 3) (by aff)).mono (by omega : 1 ≤ 3)) (IsPoly.add' (IsPoly.add' (IsPoly.add' (h.curve ?_ ?_ ?_ ?_) (h.curve ?_ ?_ ?_ ?_)) (h.curve ?_ ?_ ?_ ?_)) (h.curve ?_ ?_ ?_ ?_))) ?_
    on_goal -1 => omega
    all_goals aff
  · intro a b e
    refine IsPoly.mono (a := 3 + d) (IsPoly.mul ((IsPoly.affine (f := fun x => a ^ 3) (by aff)).mono (by omega : 1 ≤ 3)) (IsPoly.add' (IsPoly.add' (IsPoly.add' (h.curve ?_ ?_ ?_ ?_) (h.curve ?_ ?_ ?_ ?_)) (h.curve ?_ ?_ ?_ ?_)) (h.curve ?_ ?_ ?_ ?_))) ?_
    on_goal -1 => omega
    all_goals aff
  · intro a b c
    refine IsPoly.mono (a := 3 + d) (IsPoly.mul ((IsPoly.affine (f := fun x => a ^ 3) (by aff)).mono (by omega : 1 ≤ 3)) (IsPoly.add' (IsPoly.add' (IsPoly.add' (h.curve ?_ ?_ ?_ ?_) (h.curve ?_ ?_ ?_ ?_)) (h.curve ?_ ?_ ?_ ?_)) (h.curve ?_ ?_ ?_ ?_))) ?_
    on_goal -1 => omega
    all_goals aff

theorem transformed_continuous {F : PointPair → ℝ} (hF : Continuous F) :
    Continuous (transformed2 F) ∧ Continuous (transformed3 F) ∧ Continuous (transformed4 F) := by
  refine ⟨?_, ?_, ?_⟩
  · unfold transformed2; fun_prop
  · unfold transformed3; fun_prop
  · unfold transformed4; fun_prop

theorem rotated_continuous {F : PointPair → ℝ} (hF : Continuous F) (r1 r2 : Nat) : Continuous (rotated r1 r2 F) := by
  have ht : ∀ c : Nat, Continuous fun p : ℝ × ℝ => tau p.1 p.2 c := by
    intro c
    match c with
    | 0 => exact (by fun_prop : Continuous fun p : ℝ × ℝ => (p.1, p.2))
    | 1 => exact (by fun_prop : Continuous fun p : ℝ × ℝ => (1 - p.2, p.1))
    | 2 => exact (by fun_prop : Continuous fun p : ℝ × ℝ => (1 - p.1, 1 - p.2))
    | 3 => exact (by fun_prop : Continuous fun p : ℝ × ℝ => (p.2, 1 - p.1))
    | n + 4 => exact (by fun_prop : Continuous fun p : ℝ × ℝ => (p.1, p.2))
  exact hF.comp (((ht r1).comp continuous_fst).prodMk ((ht r2).comp continuous_snd))

/-- C45: for a polynomial integrand of degree `d` in the four variables and a one-dimensional rule that is exact up to degree
`d + 3`, all routines return `h²` times the exact integral, for all rotations. -/
theorem C45_exact {SP : Type} {ev : SP → SP → ℝ → ℝ} {m1 m2 : ℝ × ℝ → ℝ → SP} (P : MvPolynomial (Fin 4) ℝ) (d : Nat)
    (hP : P.totalDegree ≤ d) (q : Quad1 ℝ) (hq : ExactTo q (d + 3)) (h : ℝ) (r1 r2 : Nat) :
    (AddsIntegrand ev m1 m1 (polyFn P) → integrate2 ev h m1 (tensorRule q) = h ^ 2 * ∫ p in Cube, polyFn P p) ∧
    (AddsIntegrand ev m1 m2 (polyFn P) →
      integrate1 ev h m1 m2 (tensorRule q) = h ^ 2 * ∫ p in Cube, polyFn P p ∧
      integrate3 ev h m1 r1 m2 r2 (tensorRule q) = h ^ 2 * ∫ p in Cube, polyFn P p ∧
      integrate4 ev h m1 r1 m2 r2 (tensorRule q) = h ^ 2 * ∫ p in Cube, polyFn P p) := by
  have hl := polyFn_lines P d hP
  have hc := polyFn_continuous P
  have hi : IntegrableOn (polyFn P) Cube := hc.integrableOn_Icc
  obtain ⟨⟨-, s2⟩, ⟨-, s3⟩, ⟨-, s4⟩⟩ := C45_substitution (polyFn P) hi r1 r2
  refine ⟨?_, ?_⟩
  · intro hev
    rw [C45_identical hev, exact4 q _ hq _ (sep2 hl) (transformed_continuous hc).1, s2, smul_eq_mul]
  · intro hev
    have hr := rotated_continuous hc r1 r2
    refine ⟨?_, ?_, ?_⟩
    · have sp : SepPoly (d + 3) (polyFn P) :=
        ⟨fun b c e => (hl.curve (f1 := fun x => x) (f2 := fun _ => b) (f3 := fun _ => c) (f4 := fun _ => e)
            (by aff) (by aff) (by aff) (by aff)).mono (by omega),
          fun a c e => (hl.curve (f1 := fun _ => a) (f2 := fun x => x) (f3 := fun _ => c) (f4 := fun _ => e)
            (by aff) (by aff) (by aff) (by aff)).mono (by omega),
          fun a b e => (hl.curve (f1 := fun _ => a) (f2 := fun _ => b) (f3 := fun x => x) (f4 := fun _ => e)
            (by aff) (by aff) (by aff) (by aff)).mono (by omega),
          fun a b c => (hl.curve (f1 := fun _ => a) (f2 := fun _ => b) (f3 := fun _ => c) (f4 := fun x => x)
            (by aff) (by aff) (by aff) (by aff)).mono (by omega)⟩
      rw [(C45_regular hev h _).1, exact4 q _ hq _ sp hc, smul_eq_mul]
    · rw [C45_edge hev, exact4 q _ hq _ (sep3 (hl.rotated r1 r2)) (transformed_continuous hr).2.1, s3, smul_eq_mul]
    · rw [C45_vertex hev, exact4 q _ hq _ (sep4 (hl.rotated r1 r2)) (transformed_continuous hr).2.2, s4, smul_eq_mul]

/-- C45: total weight: the constant integrand one gives `h²`, with every rule that is exact up to degree three. -/
theorem C45_total_weight {SP : Type} {ev : SP → SP → ℝ → ℝ} {m1 m2 : ℝ × ℝ → ℝ → SP} (q : Quad1 ℝ) (hq : ExactTo q 3)
    (h : ℝ) (r1 r2 : Nat) :
    (AddsIntegrand ev m1 m1 (fun _ => 1) → integrate2 ev h m1 (tensorRule q) = h ^ 2) ∧
    (AddsIntegrand ev m1 m2 (fun _ => 1) →
      integrate1 ev h m1 m2 (tensorRule q) = h ^ 2 ∧
      integrate3 ev h m1 r1 m2 r2 (tensorRule q) = h ^ 2 ∧
      integrate4 ev h m1 r1 m2 r2 (tensorRule q) = h ^ 2) := by
  have e := C45_exact (ev := ev) (m1 := m1) (m2 := m2) 1 0 (by simp) q hq h r1 r2
  have e1 : polyFn 1 = fun _ => 1 := by funext p; simp [polyFn]
  have e2 : ∫ p in Cube, polyFn 1 p = 1 := by
    rw [e1]
    simp only [integral_const, smul_eq_mul, mul_one]
    have : (volume.restrict Cube).real Set.univ = (μ4).real Set.univ := rfl
    rw [this, μ4_eq]
    have e3 : (Set.univ : Set PointPair) = (Set.univ ×ˢ Set.univ) ×ˢ (Set.univ ×ˢ Set.univ) := by simp
    have e4 : μ1 Set.univ = 1 := by rw [μ1, Measure.restrict_apply_univ, Real.volume_Ioc]; simp
    rw [measureReal_def, e3, Measure.prod_prod, Measure.prod_prod, e4]
    simp
  rw [e2, mul_one, e1] at e
  exact e

/-- The hypotheses can be met: a routine that adds the product of the weights, and a rule that is exact up to degree three. -/
example : AddsIntegrand (fun (p1 p2 : (ℝ × ℝ) × ℝ) (v : ℝ) => v + p1.2 * p2.2) Prod.mk Prod.mk (fun _ => (1:ℝ)) :=
  fun _ _ _ _ _ => by simp

/-- Rules of every exactness exist: those built by the code. -/
example (d : Nat) : ∃ q : Quad1 ℝ, ExactTo q (d + 3) := by
  obtain ⟨es, h⟩ := solver_exists
  refine ⟨gaussLegendreGeneric es (d + 3), fun f hf => C47_generic es (d + 3) (by omega) ?_ f (hf.trans (by omega))⟩
  exact h (d + 3) _

end exact

end Bembel.Props
