import Verif.Spec.Divergence
import Verif.Props.AnsatzSpace
import Verif.Props.MeshGrid
import Verif.Props.Moments
import Verif.Props.FunctionEvaluator
import Verif.Props.Quadrature
/-!
# C85: the divergence theorem on the surface
-/

set_option linter.unusedSectionVars false

open Finset

namespace Bembel.Props
open Spec Spl Basis Mesh Projector Glue Ansatz H2

namespace Gauss

variable {R : Type} [Field R] [Algebra ℝ R]

theorem isPoly_bern (P m : Nat) : IsPoly P (fun x => bern P m x) :=
  ⟨bernsteinPolynomial ℝ P m, bernstein_natDegree P m, fun x => bern_eq_poly P m x⟩

theorem reflect (q : Quad1 ℝ) (P m : Nat) (hq : ExactTo q P) :
    ∑ b ∈ range q.size, q.w b * bern P m (1 - q.xi b) = ∑ b ∈ range q.size, q.w b * bern P m (q.xi b) := by
  have h1 : IsPoly P (fun x => bern P m (1 - x)) := by
    refine ⟨(bernsteinPolynomial ℝ P m).comp (1 - Polynomial.X), ?_, fun x => ?_⟩
    · refine (Polynomial.natDegree_comp_le).trans ?_
      have : (1 - Polynomial.X : Polynomial ℝ).natDegree ≤ 1 := by
        refine (Polynomial.natDegree_sub_le _ _).trans ?_
        simp
      calc _ ≤ P * 1 := Nat.mul_le_mul (bernstein_natDegree P m) this
        _ = P := mul_one P
    · show bern P m (1 - x) = _
      rw [bern_eq_poly]; simp
  have e1 := hq.apply h1
  have e2 := hq.apply (isPoly_bern P m)
  rw [e1, e2]
  have := intervalIntegral.integral_comp_sub_left (a := (0 : ℝ)) (b := 1) (fun x => bern P m x) 1
  simpa using this

theorem deriv_sum (q : Quad1 ℝ) (P m : Nat) (hq : ExactTo q P) :
    ∑ b ∈ range q.size, q.w b * (Polynomial.derivative (bernsteinPolynomial ℝ P m)).eval (q.xi b) = bern P m (1 : ℝ) - bern P m (0 : ℝ) := by
  have h1 : IsPoly P (fun x => (Polynomial.derivative (bernsteinPolynomial ℝ P m)).eval x) :=
    ⟨_, (Polynomial.natDegree_derivative_le _).trans ((Nat.sub_le _ _).trans (bernstein_natDegree P m)), fun x => rfl⟩
  have e1 := hq.apply h1
  rw [e1]
  exact intervalIntegral.integral_eq_sub_of_hasDerivAt (fun x _ => bern_deriv P m x)
    ((Polynomial.continuous _).intervalIntegrable _ _)

theorem sum_shapeDx (q : Quad1 ℝ) (P i : Nat) (hq : ExactTo q P) :
    ∑ k ∈ range (tensorRule q).size, (tensorRule q).w k * shapeDx P i ((tensorRule q).xi k) =
      (∑ b ∈ range q.size, q.w b * shape P i (edgePoint 1 (q.xi b))) - ∑ b ∈ range q.size, q.w b * shape P i (edgePoint 3 (q.xi b)) := by
  simp only [shapeDx_eq]
  rw [(C46_tensor q).2.2 (fun x => (Polynomial.derivative (bernsteinPolynomial ℝ P (i % (P + 1)))).eval x) (fun y => bern P (i / (P + 1)) y),
    deriv_sum q P _ hq]
  have e1 : ∀ b, q.w b * shape P i (edgePoint 1 (q.xi b)) = bern P (i % (P + 1)) (1 : ℝ) * (q.w b * bern P (i / (P + 1)) (q.xi b)) := by
    intro b; simp [shape, edgePoint]; ring
  have e3 : ∀ b, q.w b * shape P i (edgePoint 3 (q.xi b)) = bern P (i % (P + 1)) (0 : ℝ) * (q.w b * bern P (i / (P + 1)) (1 - q.xi b)) := by
    intro b; simp [shape, edgePoint]; ring
  simp only [e1, e3, ← mul_sum]
  rw [reflect q P _ hq]; ring

theorem sum_shapeDy (q : Quad1 ℝ) (P i : Nat) (hq : ExactTo q P) :
    ∑ k ∈ range (tensorRule q).size, (tensorRule q).w k * shapeDy P i ((tensorRule q).xi k) =
      (∑ b ∈ range q.size, q.w b * shape P i (edgePoint 2 (q.xi b))) - ∑ b ∈ range q.size, q.w b * shape P i (edgePoint 0 (q.xi b)) := by
  simp only [shapeDy_eq]
  rw [(C46_tensor q).2.2 (fun x => bern P (i % (P + 1)) x) (fun y => (Polynomial.derivative (bernsteinPolynomial ℝ P (i / (P + 1)))).eval y),
    deriv_sum q P _ hq]
  have e1 : ∀ b, q.w b * shape P i (edgePoint 2 (q.xi b)) = bern P (i / (P + 1)) (1 : ℝ) * (q.w b * bern P (i % (P + 1)) (1 - q.xi b)) := by
    intro b; simp [shape, edgePoint]; ring
  have e3 : ∀ b, q.w b * shape P i (edgePoint 0 (q.xi b)) = bern P (i / (P + 1)) (0 : ℝ) * (q.w b * bern P (i % (P + 1)) (q.xi b)) := by
    intro b; simp [shape, edgePoint]; ring
  simp only [e1, e3, ← mul_sum]
  rw [reflect q P _ hq]; ring

theorem edgeFlux_eq (q : Quad1 ℝ) (T f : EMat R) (nE P n : Nat) (h : ℝ) (hh : h ≠ 0) (i : Nat) :
    edgeFlux q T f nE P n h i = (outwardSign i : ℝ) • ∑ j ∈ range ((P + 1) * (P + 1)),
      localCoeff T f nE P (normalComponent i) n j * algebraMap ℝ R (∑ b ∈ range q.size, q.w b * shape P j (edgePoint i (q.xi b))) := by
  unfold edgeFlux discreteFunction
  simp only [map_sum, mul_sum, Algebra.smul_def, map_mul]
  rw [sum_comm]
  refine sum_congr rfl fun j _ => sum_congr rfl fun b _ => ?_
  have : algebraMap ℝ R h * algebraMap ℝ R (1 / h) = 1 := by rw [← map_mul, mul_one_div_cancel hh, map_one]
  linear_combination (algebraMap ℝ R (q.w b) * algebraMap ℝ R (outwardSign i : ℝ) * localCoeff T f nE P (normalComponent i) n j *
    algebraMap ℝ R (shape P j (edgePoint i (q.xi b)))) * this

theorem element (q : Quad1 ℝ) (P : Nat) (hq : ExactTo q P) (T f : EMat R) (nE n : Nat) (h : ℝ) (hh : h ≠ 0) :
    totalDiv (tensorRule q) T f nE P n h = ∑ i ∈ range 4, edgeFlux q T f nE P n h i := by
  have e1 : totalDiv (tensorRule q) T f nE P n h = ∑ j ∈ range ((P + 1) * (P + 1)),
      (localCoeff T f nE P 0 n j * algebraMap ℝ R (∑ k ∈ range (tensorRule q).size, (tensorRule q).w k * shapeDx P j ((tensorRule q).xi k)) +
       localCoeff T f nE P 1 n j * algebraMap ℝ R (∑ k ∈ range (tensorRule q).size, (tensorRule q).w k * shapeDy P j ((tensorRule q).xi k))) := by
    unfold totalDiv discreteDiv
    simp only [map_sum, mul_sum, Algebra.smul_def, map_mul]
    rw [sum_comm]
    refine sum_congr rfl fun j _ => ?_
    rw [← sum_add_distrib]
    refine sum_congr rfl fun b _ => ?_
    have : algebraMap ℝ R (h ^ 2) * algebraMap ℝ R (1 / h ^ 2) = 1 := by rw [← map_mul, mul_one_div_cancel (pow_ne_zero 2 hh), map_one]
    generalize (tensorRule q).w b = w
    generalize (tensorRule q).xi b = x
    linear_combination (algebraMap ℝ R w * (localCoeff T f nE P 0 n j * algebraMap ℝ R (shapeDx P j x) +
      localCoeff T f nE P 1 n j * algebraMap ℝ R (shapeDy P j x))) * this
  rw [e1]
  simp only [sum_range_succ, range_zero, sum_empty, zero_add, edgeFlux_eq q T f nE P n h hh, sum_shapeDx q P _ hq, sum_shapeDy q P _ hq, map_sub]
  have s0 : ((outwardSign 0 : Int) : ℝ) = -1 := by simp [outwardSign]
  have s1 : ((outwardSign 1 : Int) : ℝ) = 1 := by simp [outwardSign]
  have s2 : ((outwardSign 2 : Int) : ℝ) = 1 := by simp [outwardSign]
  have s3 : ((outwardSign 3 : Int) : ℝ) = -1 := by simp [outwardSign]
  have n0 : normalComponent 0 = 1 := rfl
  have n1 : normalComponent 1 = 0 := rfl
  have n2 : normalComponent 2 = 1 := rfl
  have n3 : normalComponent 3 = 0 := rfl
  rw [s0, s1, s2, s3, n0, n1, n2, n3]
  simp only [one_smul, neg_smul]
  rw [← sum_neg_distrib, ← sum_neg_distrib, ← sum_add_distrib, ← sum_add_distrib, ← sum_add_distrib]
  exact sum_congr rfl fun j _ => by ring


/-- Reflection of the parameter does not change the flux. -/
theorem edgeFlux_reflect (q : Quad1 ℝ) (P : Nat) (hq : ExactTo q P) (T f : EMat R) (nE n : Nat) (h : ℝ) (hh : h ≠ 0) (i : Nat) (hi : i < 4) :
    edgeFlux q T f nE P n h i =
      ∑ b ∈ range q.size, (h * q.w b) • ((outwardSign i : ℝ) • discreteFunction T f nE P (normalComponent i) n h (edgePoint i (1 - q.xi b))) := by
  have e : ∀ j, ∑ b ∈ range q.size, q.w b * shape P j (edgePoint i (q.xi b)) = ∑ b ∈ range q.size, q.w b * shape P j (edgePoint i (1 - q.xi b)) := by
    intro j
    have r0 := reflect q P (j % (P + 1)) hq
    have r1 := reflect q P (j / (P + 1)) hq
    have mul : ∀ (c : ℝ) (g : Nat → ℝ) (g' : Nat → ℝ), ∑ b ∈ range q.size, q.w b * g b = ∑ b ∈ range q.size, q.w b * g' b →
        ∑ b ∈ range q.size, q.w b * (c * g b) = ∑ b ∈ range q.size, q.w b * (c * g' b) := by
      intro c g g' hg
      have : ∀ g : Nat → ℝ, ∑ b ∈ range q.size, q.w b * (c * g b) = c * ∑ b ∈ range q.size, q.w b * g b := by
        intro g; rw [mul_sum]; exact sum_congr rfl fun b _ => by ring
      rw [this, this, hg]
    rcases four_cases hi with rfl | rfl | rfl | rfl
    · have := mul (bern P (j / (P + 1)) (0 : ℝ)) _ _ r0
      simpa [shape, edgePoint, mul_comm, mul_left_comm] using this.symm
    · have := mul (bern P (j % (P + 1)) (1 : ℝ)) _ _ r1
      simpa [shape, edgePoint, mul_comm, mul_left_comm] using this.symm
    · have := mul (bern P (j / (P + 1)) (1 : ℝ)) _ _ r0
      simpa [shape, edgePoint, mul_comm, mul_left_comm] using this
    · have := mul (bern P (j % (P + 1)) (0 : ℝ)) _ _ r1
      simpa [shape, edgePoint, mul_comm, mul_left_comm] using this
  rw [edgeFlux_eq q T f nE P n h hh]
  have := edgeFlux_eq ⟨q.size, q.w, fun b => 1 - q.xi b⟩ T f nE P n h hh i
  unfold edgeFlux at this
  simp only at this
  rw [this]
  simp only [e]

/-! ### pairs of facing edges -/

variable {V : Type} (near : V → V → Bool) (corner : Nat → Nat → V)

/-- Two element edges which are on both sides of the same edge of the mesh. -/
def Opposite (nP M : Nat) (x y : Addr × Nat) : Prop :=
  IsNode nP M x.1 ∧ IsNode nP M y.1 ∧ Facing corner M x.2 y.2 x.1 y.1

theorem grid_symm {i : Nat} {a b : Addr} (hi : i < 4) (h : GridNeighbour i a b) : GridNeighbour ((i + 2) % 4) b a := by
  unfold GridNeighbour at h ⊢
  rcases four_cases hi with rfl | rfl | rfl | rfl <;> simp at h ⊢ <;> omega

theorem opposite_symm {nP M : Nat} {x y : Addr × Nat} (h : Opposite corner nP M x y) : Opposite corner nP M y x := by
  obtain ⟨hx, hy, hi, hk, ⟨h1, h2⟩ | ⟨h1, h2, h3⟩⟩ := h
  · refine ⟨hy, hx, hk, hi, Or.inl ⟨h1.symm, h2.2.1, h2.1, ?_⟩⟩
    rcases h2.2.2 with ⟨u, v, w⟩ | ⟨u, v, w⟩
    · exact Or.inl ⟨u.symm, v.symm, w.symm⟩
    · exact Or.inr ⟨v.symm, u.symm, by omega⟩
  · refine ⟨hy, hx, hk, hi, Or.inr ⟨h1.symm, ?_, ?_⟩⟩
    · rw [h2]; rcases four_cases hi with h | h | h | h <;> rw [h]
    · rw [h2]; exact grid_symm hi h3

theorem grid_not_edge {nP M i : Nat} {a b : Addr} (hb : IsNode nP M b) (h : GridNeighbour i a b) : ¬ OnEdge M i a := by
  have pb := pos_lt b.2
  rw [hb.2.1] at pb
  unfold GridNeighbour at h
  unfold OnEdge
  omega

theorem opposite_unique {nP M : Nat} (hc : ConformingPatches near corner nP) (ho : OrientedPatches corner nP) {x y z : Addr × Nat}
    (h : Opposite corner nP M x y) (h' : Opposite corner nP M x z) : y = z := by
  obtain ⟨a, i⟩ := x
  obtain ⟨b, k⟩ := y
  obtain ⟨c, m⟩ := z
  obtain ⟨ha, hb, hi, hk, h⟩ := h
  obtain ⟨-, hb', -, hk', h'⟩ := h'
  simp only at *
  rcases h with ⟨h1, h2⟩ | ⟨h1, h2, h3⟩
  · rcases h' with ⟨h1', h2'⟩ | ⟨h1', h2', h3'⟩
    · obtain ⟨e, al⟩ := facing_opposite near corner hc ho ha.1 hb.1 hi hk h1 h2
      obtain ⟨e', al'⟩ := facing_opposite near corner hc ho ha.1 hb'.1 hi hk' h1' h2'
      rcases hc.twoSides a.1 ha.1 b.1 hb.1 c.1 hb'.1 i hi k hk m hk' e e' with g | g | g
      · exact absurd (Prod.mk.inj g).1 h1
      · exact absurd (Prod.mk.inj g).1 h1'
      · obtain ⟨g1, g2⟩ := Prod.mk.inj g
        subst g2
        have pb := pos_lt b.2
        rw [hb.2.1] at pb
        have pc := pos_lt c.2
        rw [hb'.2.1] at pc
        have o1 := h2.2.1
        have o2 := h2'.2.1
        have al2 : alongEdge M k b = alongEdge M k c := by omega
        have hxy : posX b.2 = posX c.2 ∧ posY b.2 = posY c.2 := by
          unfold OnEdge at o1 o2
          unfold alongEdge at al2
          rcases four_cases hk with rfl | rfl | rfl | rfl <;> simp at o1 o2 al2 <;> omega
        have : b = c := Prod.ext g1 (pos_inj _ _ (by rw [hb.2.1, hb'.2.1]) hb.2.2 hb'.2.2 hxy.1 hxy.2)
        rw [this]
    · exact absurd h2.1 (grid_not_edge hb' h3')
  · rcases h' with ⟨h1', h2'⟩ | ⟨h1', h2', h3'⟩
    · exact absurd h2'.1 (grid_not_edge hb h3)
    · have hxy : posX b.2 = posX c.2 ∧ posY b.2 = posY c.2 := by
        unfold GridNeighbour at h3 h3'
        omega
      have : b = c := Prod.ext (h1.symm.trans h1') (pos_inj _ _ (by rw [hb.2.1, hb'.2.1]) hb.2.2 hb'.2.2 hxy.1 hxy.2)
      rw [this, h2, h2']

theorem opposite_exists {nP M : Nat} {a : Addr} (ha : IsNode nP M a) {i : Nat} (hi : i < 4) (h : ¬ OnBoundary corner nP M i a) :
    ∃ y, Opposite corner nP M (a, i) y := by
  by_cases he : OnEdge M i a
  · unfold OnBoundary at h
    push Not at h
    obtain ⟨q, hq, hqa, k, hk, e⟩ := h he
    obtain ⟨b, b1, b2, b3⟩ := iface_neighbour_exists corner nP M i k q a ha hk hq he e
    exact ⟨(b, k), ha, b1, hi, hk, Or.inl ⟨fun h => hqa (b2 ▸ h.symm), b3⟩⟩
  · obtain ⟨b, b1, b2, b3⟩ := grid_neighbour_exists nP M i a ha hi he
    exact ⟨(b, (i + 2) % 4), ha, b1, hi, Nat.mod_lt _ (by omega), Or.inr ⟨b2.symm, rfl, b3⟩⟩

theorem not_boundary {nP M : Nat} {a : Addr} {i : Nat} {y} (h : Opposite corner nP M (a, i) y) : ¬ OnBoundary corner nP M i a := by
  obtain ⟨ha, hb, hi, hk, ⟨h1, h2⟩ | ⟨h1, h2, h3⟩⟩ := h
  · intro g
    refine g.2 y.1.1 hb.1 (fun h => h1 h.symm) y.2 hk ?_
    unfold patchEdge
    rw [Sym2.eq_iff]
    rcases h2.2.2 with ⟨x, z, _⟩ | ⟨x, z, _⟩
    · exact Or.inl ⟨x, z⟩
    · exact Or.inr ⟨x, z⟩
  · intro g
    exact grid_not_edge hb h3 g.1

open scoped Classical in
/-- A quantity on the element edges which cancels across every edge of the mesh sums up to its values on the boundary. -/
theorem cancel {nP M : Nat} (hc : ConformingPatches near corner nP) (ho : OrientedPatches corner nP) (F : Addr → Nat → R)
    (hF : ∀ a b i k, IsNode nP M a → IsNode nP M b → Facing corner M i k a b → F a i + F b k = 0) :
    ∑ a ∈ (leaves nP M).toFinset, ∑ i ∈ range 4, F a i =
      ∑ a ∈ (leaves nP M).toFinset, ∑ i ∈ range 4, if OnBoundary corner nP M i a then F a i else 0 := by
  rw [← sub_eq_zero, ← sum_sub_distrib]
  simp only [← sum_sub_distrib]
  rw [← sum_product (f := fun x : Addr × Nat => F x.1 x.2 - if OnBoundary corner nP M x.2 x.1 then F x.1 x.2 else 0)]
  have mem : ∀ x : Addr × Nat, x ∈ (leaves nP M).toFinset ×ˢ range 4 ↔ IsNode nP M x.1 ∧ x.2 < 4 := by
    intro x
    rw [mem_product, List.mem_toFinset, mem_leaves, mem_range]; rfl
  let g : (x : Addr × Nat) → Addr × Nat := fun x => if h : ∃ y, Opposite corner nP M x y then h.choose else x
  have gs : ∀ x, (∃ y, Opposite corner nP M x y) → Opposite corner nP M x (g x) := by
    intro x h
    simp only [g, dif_pos h]
    exact h.choose_spec
  have gn : ∀ x, ¬ (∃ y, Opposite corner nP M x y) → g x = x := fun x h => by simp only [g, dif_neg h]
  clear_value g
  refine sum_involution (fun x _ => g x) ?_ ?_ ?_ ?_
  · intro x hx
    obtain ⟨h1, h2⟩ := (mem x).1 hx
    by_cases h : ∃ y, Opposite corner nP M x y
    · have o := gs x h
      have n1 : ¬ OnBoundary corner nP M x.2 x.1 := not_boundary corner o
      have n2 : ¬ OnBoundary corner nP M (g x).2 (g x).1 := not_boundary corner (opposite_symm corner o)
      rw [if_neg n1, if_neg n2, sub_zero, sub_zero]
      exact hF _ _ _ _ o.1 o.2.1 o.2.2
    · rw [gn x h, if_pos]
      · simp
      · by_contra hb
        exact h (opposite_exists corner h1 h2 hb)
  · intro x hx hne
    by_cases h : ∃ y, Opposite corner nP M x y
    · have o := gs x h
      intro e
      rw [e] at o
      obtain ⟨_, _, _, _, ⟨h1, _⟩ | ⟨_, h2, _⟩⟩ := o
      · exact h1 rfl
      · omega
    · exfalso
      apply hne
      obtain ⟨h1, h2⟩ := (mem x).1 hx
      rw [if_pos, sub_self]
      by_contra hb
      exact h (opposite_exists corner h1 h2 hb)
  · intro x hx
    by_cases h : ∃ y, Opposite corner nP M x y
    · have o := gs x h
      exact (mem _).2 ⟨o.2.1, o.2.2.2.1⟩
    · rw [gn x h]; exact hx
  · intro x hx
    by_cases h : ∃ y, Opposite corner nP M x y
    · have o := opposite_symm corner (gs x h)
      exact opposite_unique near corner hc ho (gs _ ⟨_, o⟩) o
    · rw [gn x h, gn x h]

end Gauss

variable {R : Type} [Field R] [Algebra ℝ R]

/-- C85: Gauss' theorem on an element: for every vector of dofs the integral of the divergence is the sum of the fluxes through the four
edges, if the quadrature rule is exact for degree `P`. -/
theorem C85_element (q : Quad1 ℝ) (P : Nat) (hq : ExactTo q P) (T f : EMat R) (nE n : Nat) (h : ℝ) (hh : h ≠ 0) :
    totalDiv (tensorRule q) T f nE P n h = ∑ i ∈ range 4, edgeFlux q T f nE P n h i :=
  Gauss.element q P hq T f nE n h hh

open scoped Classical in
/-- C85: Gauss' theorem on the surface: for every field of the divergence conforming space on a conforming, consistently oriented patch
collection the integral of the divergence over the surface is the flux through the boundary of the surface. -/
theorem C85_gauss {V : Type} (near : V → V → Bool) (corner : Nat → Nat → V) (junk : Nat → ℝ) (junkM : Nat → Nat → ℝ) (solve)
    (hs : SolvesSystems solve) (P M nP rep : Nat) (hnP : 0 < nP) (hP0 : 0 < P) (hP : P ≤ 19) (hrep : 1 ≤ rep) (hrP : rep ≤ P)
    (hc : ConformingPatches near corner nP) (ho : OrientedPatches corner nP)
    (t : Mesh.Tree ℝ) (ht : initElementTree near corner nP M = some t) (els : List Addr) (hels : elements t = some els)
    (q : Quad1 ℝ) (hq : ExactTo q P) :
    ∃ T, transformationDiv junk junkM solve t P M nP rep = some T ∧ ∀ f : EMat R,
      (els.map fun a => totalDiv (tensorRule q) (ofReal R T) f (nP * 4 ^ M) P (t.id a) (1 / 2 ^ M)).sum =
      (els.map fun a => ∑ i ∈ range 4, if OnBoundary corner nP M i a then
        edgeFlux q (ofReal R T) f (nP * 4 ^ M) P (t.id a) (1 / 2 ^ M) i else 0).sum := by
  obtain ⟨T, h1, -, h2⟩ := C64_divergence (R := R) near corner junk junkM solve hs P M nP rep hnP hP0 hP hrep hrP hc ho t ht
  refine ⟨T, h1, fun f => ?_⟩
  obtain ⟨t', k1, k2, k3, k4, k5, k6, k7⟩ := tree_facts (K := ℝ) near corner nP M hnP
  obtain rfl : t = t' := Option.some.inj (ht.symm.trans k1)
  obtain rfl : leaves nP M = els := Option.some.inj ((elements_eq t nP M hnP k3 k6).symm.trans hels)
  have hh : (1 / 2 ^ M : ℝ) ≠ 0 := by positivity
  rw [← List.sum_toFinset _ (leaves_nodup nP M), ← List.sum_toFinset _ (leaves_nodup nP M)]
  simp only [C85_element q P hq _ _ _ _ _ hh]
  refine Gauss.cancel near corner hc ho (fun a i => edgeFlux q (ofReal R T) f (nP * 4 ^ M) P (t.id a) (1 / 2 ^ M) i) ?_
  intro a b i k ha hb hf
  show _ + edgeFlux q (ofReal R T) f (nP * 4 ^ M) P (t.id b) (1 / 2 ^ M) k = 0
  rw [Gauss.edgeFlux_reflect q P hq _ _ _ (t.id b) _ hh k hf.2.1]
  unfold edgeFlux
  rw [← sum_add_distrib]
  refine sum_eq_zero fun c _ => ?_
  rw [← smul_add, h2 f a b ha hb i k hf, smul_zero]

/-- C85: on a closed surface the total divergence of every field of the divergence conforming space vanishes: the surface charge of a
discrete current is zero. -/
theorem C85_closed {V : Type} (near : V → V → Bool) (corner : Nat → Nat → V) (junk : Nat → ℝ) (junkM : Nat → Nat → ℝ) (solve)
    (hs : SolvesSystems solve) (P M nP rep : Nat) (hnP : 0 < nP) (hP0 : 0 < P) (hP : P ≤ 19) (hrep : 1 ≤ rep) (hrP : rep ≤ P)
    (hc : ConformingPatches near corner nP) (ho : OrientedPatches corner nP) (hcl : ClosedPatches corner nP)
    (t : Mesh.Tree ℝ) (ht : initElementTree near corner nP M = some t) (els : List Addr) (hels : elements t = some els)
    (q : Quad1 ℝ) (hq : ExactTo q P) :
    ∃ T, transformationDiv junk junkM solve t P M nP rep = some T ∧ ∀ f : EMat R,
      (els.map fun a => totalDiv (tensorRule q) (ofReal R T) f (nP * 4 ^ M) P (t.id a) (1 / 2 ^ M)).sum = 0 := by
  classical
  obtain ⟨T, h1, h2⟩ := C85_gauss (R := R) near corner junk junkM solve hs P M nP rep hnP hP0 hP hrep hrP hc ho t ht els hels q hq
  refine ⟨T, h1, fun f => (h2 f).trans ?_⟩
  refine List.sum_eq_zero fun x hx => ?_
  obtain ⟨a, ha, rfl⟩ := List.mem_map.1 hx
  obtain ⟨t', k1, k2, k3, k4, k5, k6, k7⟩ := tree_facts (K := ℝ) near corner nP M hnP
  obtain rfl : t = t' := Option.some.inj (ht.symm.trans k1)
  obtain rfl : leaves nP M = els := Option.some.inj ((elements_eq t nP M hnP k3 k6).symm.trans hels)
  refine sum_eq_zero fun i hi => ?_
  rw [if_neg]
  intro hb
  obtain ⟨p, hp, hpa, k, hk, e⟩ := hcl a.1 (mem_leaves.1 ha).1 i (mem_range.1 hi)
  exact hb.2 p hp hpa k hk e

open FunctionEval in
/-- C85 for the function evaluator: summing up what `evaluateDiv` returns in the quadrature points of all elements of a closed surface,
weighted with area and weight, gives zero, whatever the vector of dofs and the geometry. -/
theorem C85_evaluator {V : Type} (near : V → V → Bool) (corner : Nat → Nat → V) (junk : Nat → ℝ) (junkM : Nat → Nat → ℝ) (solve)
    (hs : SolvesSystems solve) (P M nP rep : Nat) (hnP : 0 < nP) (hP0 : 0 < P) (hP : P ≤ 19) (hrep : 1 ≤ rep) (hrP : rep ≤ P)
    (hc : ConformingPatches near corner nP) (ho : OrientedPatches corner nP) (hcl : ClosedPatches corner nP)
    (space : Space R) (ht : initElementTree near corner nP M = some space.t) (hSP : space.P = P)
    (T : EMat ℝ) (hT : transformationDiv junk junkM solve space.t P M nP rep = some T) (hST : space.trans = ofReal R T)
    (els : List Addr) (hels : elements space.t = some els) (q : Quad1 ℝ) (hq : ExactTo q P)
    (e0 : Evaluator R) (f : EMat R) (hf : f.rows = space.trans.cols) (hfc : f.cols = 1) (junkR : Nat → R) :
    ∃ e, initWith 2 e0 space f = some e ∧ ∀ pts : Addr → Nat → SurfPt, (∀ a k, (pts a k).xi = (tensorRule q).xi k) →
      ∃ g : Addr → Nat → R, (∀ a ∈ els, ∀ k, evaluateDiv junkR e a (pts a k) = some (g a k)) ∧
        (els.map fun a => ∑ k ∈ range (tensorRule q).size, (getH space.t a ^ 2 * (tensorRule q).w k) • g a k).sum = 0 := by
  subst hSP
  obtain ⟨T', g1, g2, -⟩ := C64_divergence (R := R) near corner junk junkM solve hs space.P M nP rep hnP hP0 hP hrep hrP hc ho space.t ht
  obtain rfl : T = T' := Option.some.inj (hT.symm.trans g1)
  obtain ⟨T', h1, h2⟩ := C85_closed (R := R) near corner junk junkM solve hs space.P M nP rep hnP hP0 hP hrep hrP hc ho hcl space.t ht els hels q hq
  obtain rfl : T = T' := Option.some.inj (hT.symm.trans h1)
  obtain ⟨t', k1, k2, k3, k4, k5, k6, k7⟩ := tree_facts (K := ℝ) near corner nP M hnP
  obtain rfl : space.t = t' := Option.some.inj (ht.symm.trans k1)
  obtain rfl : leaves nP M = els := Option.some.inj ((elements_eq space.t nP M hnP k3 k6).symm.trans hels)
  obtain ⟨e, e1, e2⟩ := C35_divergence near corner nP M hnP e0 space ht (by rw [hST, k3]; show T.rows = _; rw [g2]; ring) f hf hfc junkR
  refine ⟨e, e1, fun pts hpts => ⟨fun a k => discreteDiv space.trans f space.t.nElements space.P (space.t.id a) (getH space.t a) (pts a k).xi,
    fun a ha k => (e2 a (mem_leaves.1 ha) (pts a k)).2, ?_⟩⟩
  refine Eq.trans ?_ (h2 f)
  congr 1
  refine List.map_congr_left fun a ha => ?_
  have hh : getH space.t a = 1 / 2 ^ M := by
    obtain ⟨g1, g2, g3, g4⟩ := k2 M le_rfl a ha
    unfold getH; rw [g2, (mem_leaves.1 ha).2.1]
  unfold totalDiv
  refine sum_congr rfl fun k _ => ?_
  simp only []
  rw [hpts, hh, k3, hST]

/-! ### the hypotheses can be met -/

/-- The surface of a cube is closed. -/
theorem Gauss.cube_closed : ClosedPatches cubeCorner 6 := by
  intro p hp i hi
  have h : ((List.range 6).all fun p => (List.range 4).all fun i => (List.range 6).any fun q => (List.range 4).any fun k =>
    decide (q ≠ p) && decide (cubeCorner p i = cubeCorner q ((k + 1) % 4)) && decide (cubeCorner p ((i + 1) % 4) = cubeCorner q k)) = true := by decide +kernel
  have h := List.all_eq_true.1 (List.all_eq_true.1 h p (List.mem_range.2 hp)) i (List.mem_range.2 hi)
  obtain ⟨q, hq, h⟩ := List.any_eq_true.1 h
  obtain ⟨k, hk, h⟩ := List.any_eq_true.1 h
  simp only [Bool.and_eq_true, decide_eq_true_eq] at h
  refine ⟨q, List.mem_range.1 hq, h.1.1, k, List.mem_range.1 hk, ?_⟩
  unfold patchEdge
  rw [h.1.2, h.2]; exact Sym2.eq_swap

/-- Maxwell spaces of degree 3 on the cube with 384 elements: every complex vector of dofs has total charge zero. -/
example (junk : Nat → ℝ) (junkM : Nat → Nat → ℝ) : ∃ (t : Mesh.Tree ℝ) (els : List Addr) (T : EMat ℝ) (q : Quad1 ℝ),
    initElementTree (fun a b : Nat => a == b) cubeCorner 6 3 = some t ∧ elements t = some els ∧ els.length = 384 ∧
    transformationDiv junk junkM solver t 3 3 6 1 = some T ∧ ∀ f : EMat ℂ,
      (els.map fun a => totalDiv (tensorRule q) (ofReal ℂ T) f (6 * 4 ^ 3) 3 (t.id a) (1 / 2 ^ 3)).sum = 0 := by
  obtain ⟨t, ht, k2, k3, k4, k5, k6, k7⟩ := tree_facts (K := ℝ) (fun a b : Nat => a == b) cubeCorner 6 3 (by norm_num)
  obtain ⟨q, hq⟩ := exact_rule_exists 3
  have hels := elements_eq t 6 3 (by norm_num) k3 k6
  obtain ⟨T, h1, h2⟩ := C85_closed (R := ℂ) _ _ junk junkM solver solver_solves 3 3 6 1 (by norm_num) (by norm_num) (by norm_num) (by norm_num)
    (by norm_num) cube_conforming cube_oriented Gauss.cube_closed t ht _ hels q hq
  exact ⟨t, _, T, q, ht, hels, by rw [leaves_length]; norm_num, h1, h2⟩

end Bembel.Props
