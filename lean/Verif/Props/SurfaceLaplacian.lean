import Verif.Props.WellPosed
import Verif.Props.LaplaceBeltrami
import Verif.Spec.Connected
/-!
# C83, continued: the kernel of the Laplace-Beltrami matrix
-/

set_option linter.unusedSectionVars false

open Finset

namespace Bembel.Props
namespace WellPosed
open Spec Mesh Ansatz SpaceExact Refinement LocalOperator

theorem inj_of_mono (P n : Nat) (hn : P < n) (x : Nat → ℝ) (hx : ∀ i j, i < j → j < n → x i < x j) : ∀ k ≤ P, ∀ l ≤ P, x k = x l → k = l := by
  intro k hk l hl e
  rcases Nat.lt_trichotomy k l with h | h | h
  · exact absurd e (hx k l h (by omega)).ne
  · exact h
  · exact absurd e (hx l k h (by omega)).ne'

theorem bern_sum_one (P : Nat) (y : ℝ) : ∑ i ∈ range (P + 1), bern P i y = 1 := by
  have := congrArg (Polynomial.eval y) (bernsteinPolynomial.sum ℝ P)
  rw [Polynomial.eval_finsetSum, Polynomial.eval_one] at this
  rw [← this]
  exact sum_congr rfl fun i _ => bern_eq_poly P i y

theorem dbern_sum_zero (P : Nat) (y : ℝ) : ∑ i ∈ range (P + 1), (Polynomial.derivative (bernsteinPolynomial ℝ P i)).eval y = 0 := by
  rw [← Polynomial.eval_finsetSum, ← Polynomial.derivative_sum, bernsteinPolynomial.sum, Polynomial.derivative_one, Polynomial.eval_zero]

/-- If the derivative vanishes at more than `P` points, all coefficients are equal. -/
theorem derivative_unisolvent (P n : Nat) (hn : P < n) (x : Nat → ℝ) (hx : ∀ i j, i < j → j < n → x i < x j) (c : Nat → ℝ)
    (h : ∀ k < n, ∑ i ∈ range (P + 1), (Polynomial.derivative (bernsteinPolynomial ℝ P i)).eval (x k) * c i = 0) : ∀ i ≤ P, c i = c 0 := by
  let q : Polynomial ℝ := ∑ i ∈ range (P + 1), Polynomial.C (c i) * bernsteinPolynomial ℝ P i
  have ev : ∀ y, q.eval y = ∑ i ∈ range (P + 1), bern P i y * c i := by
    intro y
    simp only [q, Polynomial.eval_finsetSum, Polynomial.eval_mul, Polynomial.eval_C]
    exact sum_congr rfl fun i _ => by rw [bern_eq_poly, mul_comm]
  have evd : ∀ y, (Polynomial.derivative q).eval y = ∑ i ∈ range (P + 1), (Polynomial.derivative (bernsteinPolynomial ℝ P i)).eval y * c i := by
    intro y
    simp only [q, Polynomial.derivative_sum, Polynomial.derivative_C_mul, Polynomial.eval_finsetSum, Polynomial.eval_mul, Polynomial.eval_C]
    exact sum_congr rfl fun i _ => by rw [mul_comm]
  have deg : q.natDegree ≤ P := by
    refine Polynomial.natDegree_sum_le_of_forall_le _ _ fun i hi => ?_
    have hi := mem_range.1 hi
    refine (Polynomial.natDegree_C_mul_le _ _).trans ?_
    unfold bernsteinPolynomial
    have e1 : ((1 : Polynomial ℝ) - Polynomial.X).natDegree ≤ 1 := by
      refine (Polynomial.natDegree_sub_le _ _).trans ?_
      simp
    have e2 : (((1 : Polynomial ℝ) - Polynomial.X) ^ (P - i)).natDegree ≤ P - i := by
      refine Polynomial.natDegree_pow_le.trans ?_
      calc (P - i) * _ ≤ (P - i) * 1 := Nat.mul_le_mul_left _ e1
        _ = P - i := Nat.mul_one _
    have e3 : (((P.choose i : ℕ) : Polynomial ℝ) * Polynomial.X ^ i).natDegree ≤ i := by
      refine Polynomial.natDegree_mul_le.trans ?_
      simp
    refine Polynomial.natDegree_mul_le.trans ?_
    omega
  have dzero : Polynomial.derivative q = 0 := by
    refine Polynomial.eq_zero_of_natDegree_lt_card_of_eval_eq_zero (p := Polynomial.derivative q) (ι := Fin n) (f := fun k => x k) ?_ ?_ ?_
    · intro a b e
      simp only at e
      rcases Nat.lt_trichotomy a.1 b.1 with h | h | h
      · exact absurd e (hx _ _ h b.2).ne
      · exact Fin.ext h
      · exact absurd e (hx _ _ h a.2).ne'
    · intro k
      rw [evd]
      exact h k k.2
    · rw [Fintype.card_fin]
      have := Polynomial.natDegree_derivative_le q
      omega
  have nd := Polynomial.natDegree_eq_zero_of_derivative_eq_zero dzero
  obtain ⟨K, hK⟩ := Polynomial.natDegree_eq_zero.1 nd
  have all : ∀ i ≤ P, c i - K = 0 := by
    refine Interp.unisolvent P (fun i => c i - K) x (inj_of_mono P n hn x hx) fun k _ => ?_
    simp only [mul_sub, sum_sub_distrib]
    rw [← ev, ← hK, Polynomial.eval_C, ← sum_mul, bern_sum_one, one_mul, sub_self]
  intro i hi
  rw [sub_eq_zero.1 (all i hi), sub_eq_zero.1 (all 0 (Nat.zero_le _))]

/-- If both partial derivatives vanish on the grid, all coefficients are equal. -/
theorem gradient_unisolvent (P n : Nat) (hn : P < n) (x : Nat → ℝ) (hx : ∀ i j, i < j → j < n → x i < x j) (c : Nat → ℝ)
    (h1 : ∀ a < n, ∀ b < n, ∑ i ∈ range ((P + 1) * (P + 1)), c i * shapeDx P i (x a, x b) = 0)
    (h2 : ∀ a < n, ∀ b < n, ∑ i ∈ range ((P + 1) * (P + 1)), c i * shapeDy P i (x a, x b) = 0) : ∀ i < (P + 1) * (P + 1), c i = c 0 := by
  have md : ∀ j i, i < P + 1 → (j * (P + 1) + i) % (P + 1) = i := fun j i hi => by rw [Nat.mul_comm, Nat.mul_add_mod, Nat.mod_eq_of_lt hi]
  have dv : ∀ j i, i < P + 1 → (j * (P + 1) + i) / (P + 1) = j := fun j i hi => by rw [Nat.mul_comm, Nat.mul_add_div (by omega), Nat.div_eq_of_lt hi, Nat.add_zero]
  have s1 : ∀ a b, ∑ i ∈ range ((P + 1) * (P + 1)), c i * shapeDx P i (x a, x b) =
      ∑ j ∈ range (P + 1), bern P j (x b) * ∑ i ∈ range (P + 1), (Polynomial.derivative (bernsteinPolynomial ℝ P i)).eval (x a) * c (j * (P + 1) + i) := by
    intro a b
    rw [H2.sum_range_mul]
    refine sum_congr rfl fun j _ => ?_
    rw [mul_sum]
    refine sum_congr rfl fun i hi => ?_
    rw [shapeDx_eq, md j i (mem_range.1 hi), dv j i (mem_range.1 hi)]
    ring
  have s2 : ∀ a b, ∑ i ∈ range ((P + 1) * (P + 1)), c i * shapeDy P i (x a, x b) =
      ∑ i ∈ range (P + 1), bern P i (x a) * ∑ j ∈ range (P + 1), (Polynomial.derivative (bernsteinPolynomial ℝ P j)).eval (x b) * c (j * (P + 1) + i) := by
    intro a b
    rw [H2.sum_range_mul, sum_comm]
    refine sum_congr rfl fun i hi => ?_
    rw [mul_sum]
    refine sum_congr rfl fun j _ => ?_
    rw [shapeDy_eq, md j i (mem_range.1 hi), dv j i (mem_range.1 hi)]
    ring
  have inj := inj_of_mono P n hn x hx
  have r1 : ∀ j ≤ P, ∀ i ≤ P, c (j * (P + 1) + i) = c (j * (P + 1) + 0) := by
    intro j hj
    refine derivative_unisolvent P n hn x hx (fun i => c (j * (P + 1) + i)) fun a ha => ?_
    exact Interp.unisolvent P (fun j => ∑ i ∈ range (P + 1), (Polynomial.derivative (bernsteinPolynomial ℝ P i)).eval (x a) * c (j * (P + 1) + i)) x inj
      (fun b hb => by rw [← s1, h1 a ha b (by omega)]) j hj
  have r2 : ∀ i ≤ P, ∀ j ≤ P, c (j * (P + 1) + i) = c (0 * (P + 1) + i) := by
    intro i hi
    refine derivative_unisolvent P n hn x hx (fun j => c (j * (P + 1) + i)) fun b hb => ?_
    exact Interp.unisolvent P (fun i => ∑ j ∈ range (P + 1), (Polynomial.derivative (bernsteinPolynomial ℝ P j)).eval (x b) * c (j * (P + 1) + i)) x inj
      (fun a ha => by rw [← s2, h2 a (by omega) b hb]) i hi
  intro i hi
  obtain ⟨b1, b2⟩ := divmod_le hi
  rw [← Nat.div_add_mod' i (P + 1), r1 _ b2 _ b1, r2 0 (Nat.zero_le _) _ b2]
  simp

theorem shape_sum_one (P : Nat) (s : ℝ × ℝ) : ∑ i ∈ range ((P + 1) * (P + 1)), shape P i s = 1 := by
  rw [H2.sum_range_mul, ← mul_one (1 : ℝ)]
  nth_rw 1 [← bern_sum_one P s.2]
  nth_rw 1 [← bern_sum_one P s.1]
  rw [sum_mul]
  refine sum_congr rfl fun j _ => ?_
  rw [mul_sum]
  refine sum_congr rfl fun i hi => ?_
  have hi := mem_range.1 hi
  unfold shape
  rw [show (j * (P + 1) + i) % (P + 1) = i by rw [Nat.mul_comm, Nat.mul_add_mod, Nat.mod_eq_of_lt hi],
    show (j * (P + 1) + i) / (P + 1) = j by rw [Nat.mul_comm, Nat.mul_add_div (by omega), Nat.div_eq_of_lt hi, Nat.add_zero]]
  ring

theorem shapeDx_sum_zero (P : Nat) (s : ℝ × ℝ) : ∑ i ∈ range ((P + 1) * (P + 1)), shapeDx P i s = 0 := by
  rw [H2.sum_range_mul]
  refine sum_eq_zero fun j _ => ?_
  rw [← zero_mul (bern P j s.2), ← dbern_sum_zero P s.1, sum_mul]
  refine sum_congr rfl fun i hi => ?_
  have hi := mem_range.1 hi
  rw [shapeDx_eq, show (j * (P + 1) + i) % (P + 1) = i by rw [Nat.mul_comm, Nat.mul_add_mod, Nat.mod_eq_of_lt hi],
    show (j * (P + 1) + i) / (P + 1) = j by rw [Nat.mul_comm, Nat.mul_add_div (by omega), Nat.div_eq_of_lt hi, Nat.add_zero]]

theorem shapeDy_sum_zero (P : Nat) (s : ℝ × ℝ) : ∑ i ∈ range ((P + 1) * (P + 1)), shapeDy P i s = 0 := by
  rw [H2.sum_range_mul, sum_comm]
  refine sum_eq_zero fun i hi => ?_
  rw [← mul_zero (bern P i s.1), ← dbern_sum_zero P s.2, mul_sum]
  refine sum_congr rfl fun j _ => ?_
  have hi := mem_range.1 hi
  rw [shapeDy_eq, show (j * (P + 1) + i) % (P + 1) = i by rw [Nat.mul_comm, Nat.mul_add_mod, Nat.mod_eq_of_lt hi],
    show (j * (P + 1) + i) / (P + 1) = j by rw [Nat.mul_comm, Nat.mul_add_div (by omega), Nat.div_eq_of_lt hi, Nat.add_zero]]

/-- A number for every element that is the same across common edges is the same everywhere. -/
theorem connected {V : Type} (corner : Nat → Nat → V) (nP M : Nat) (ho : OrientedPatches corner nP) (hconn : ConnectedPatches corner nP) (κ : Addr → ℝ)
    (hκ : ∀ a b i k, IsNode nP M a → IsNode nP M b → Facing corner M i k a b → κ a = κ b) (a b : Addr) (ha : IsNode nP M a) (hb : IsNode nP M b) : κ a = κ b := by
  have h2 : 0 < 2 ^ M := by positivity
  have hp : ∀ X Y : Nat, ∃ l : List Nat, X < 2 ^ M → Y < 2 ^ M → l.length = M ∧ (∀ i ∈ l, i < 4) ∧ posX l = X ∧ posY l = Y := by
    intro X Y
    by_cases h : X < 2 ^ M ∧ Y < 2 ^ M
    · obtain ⟨l, hl⟩ := exists_path M X Y h.1 h.2
      exact ⟨l, fun _ _ => hl⟩
    · exact ⟨[], fun h1 h2 => absurd ⟨h1, h2⟩ h⟩
  choose l hl using hp
  have node : ∀ p < nP, ∀ X < 2 ^ M, ∀ Y < 2 ^ M, IsNode nP M (p, l X Y) := fun p hp X hX Y hY => ⟨hp, (hl X Y hX hY).1, (hl X Y hX hY).2.1⟩
  have canon : ∀ a, IsNode nP M a → posX a.2 < 2 ^ M ∧ posY a.2 < 2 ^ M ∧ a = (a.1, l (posX a.2) (posY a.2)) := by
    intro a ha
    have pb := pos_lt a.2
    rw [ha.2.1] at pb
    have := hl _ _ pb.1 pb.2
    exact ⟨pb.1, pb.2, Prod.ext rfl (pos_inj _ _ (by rw [this.1, ha.2.1]) ha.2.2 this.2.1 this.2.2.1.symm this.2.2.2.symm)⟩
  have hx : ∀ p < nP, ∀ Y < 2 ^ M, ∀ X < 2 ^ M, κ (p, l X Y) = κ (p, l 0 Y) := by
    intro p hp Y hY X
    induction X with
    | zero => intro _; rfl
    | succ X ih =>
      intro hX
      rw [← ih (by omega)]
      refine (hκ _ _ 1 3 (node p hp X (by omega) Y hY) (node p hp (X + 1) hX Y hY) ⟨by omega, by omega, Or.inr ⟨rfl, rfl, Or.inr (Or.inl ⟨rfl, ?_, ?_⟩)⟩⟩).symm
      · rw [(hl X Y (by omega) hY).2.2.1, (hl _ Y hX hY).2.2.1]
      · rw [(hl X Y (by omega) hY).2.2.2, (hl _ Y hX hY).2.2.2]
  have hy : ∀ p < nP, ∀ Y < 2 ^ M, κ (p, l 0 Y) = κ (p, l 0 0) := by
    intro p hp Y
    induction Y with
    | zero => intro _; rfl
    | succ Y ih =>
      intro hY
      rw [← ih (by omega)]
      refine (hκ _ _ 2 0 (node p hp 0 h2 Y (by omega)) (node p hp 0 h2 (Y + 1) hY) ⟨by omega, by omega, Or.inr ⟨rfl, rfl, Or.inr (Or.inr (Or.inl ⟨rfl, ?_, ?_⟩))⟩⟩).symm
      · rw [(hl 0 Y h2 (by omega)).2.2.1, (hl 0 _ h2 hY).2.2.1]
      · rw [(hl 0 Y h2 (by omega)).2.2.2, (hl 0 _ h2 hY).2.2.2]
  have patch : ∀ a, IsNode nP M a → κ a = κ (a.1, l 0 0) := by
    intro a ha
    obtain ⟨c1, c2, c3⟩ := canon a ha
    rw [c3, hx _ ha.1 _ c2 _ c1, hy _ ha.1 _ c2]
  have along : ∀ i < 4, ∀ j < 2 ^ M, ∃ X < 2 ^ M, ∃ Y < 2 ^ M, ∀ p, OnEdge M i (p, l X Y) ∧ alongEdge M i (p, l X Y) = j := by
    intro i hi j hj
    rcases Glue.four_cases hi with rfl | rfl | rfl | rfl
    · refine ⟨j, hj, 0, h2, fun p => ⟨Or.inl ⟨rfl, (hl _ _ hj h2).2.2.2⟩, ?_⟩⟩
      simp only [alongEdge, if_true]
      exact (hl _ _ hj h2).2.2.1
    · have h3 : 2 ^ M - 1 < 2 ^ M := by omega
      refine ⟨2 ^ M - 1, h3, j, hj, fun p => ⟨Or.inr (Or.inl ⟨rfl, ?_⟩), ?_⟩⟩
      · simp only []; rw [(hl _ _ h3 hj).2.2.1]; omega
      · simp only [alongEdge, if_true, one_ne_zero, if_false]
        exact (hl _ _ h3 hj).2.2.2
    · have h3 : 2 ^ M - 1 < 2 ^ M := by omega
      have h4 : 2 ^ M - 1 - j < 2 ^ M := by omega
      refine ⟨2 ^ M - 1 - j, h4, 2 ^ M - 1, h3, fun p => ⟨Or.inr (Or.inr (Or.inl ⟨rfl, ?_⟩)), ?_⟩⟩
      · simp only []; rw [(hl _ _ h4 h3).2.2.2]; omega
      · have := (hl _ _ h4 h3).2.2.1
        simp only [alongEdge, this]
        simp
        omega
    · have h4 : 2 ^ M - 1 - j < 2 ^ M := by omega
      refine ⟨0, h2, 2 ^ M - 1 - j, h4, fun p => ⟨Or.inr (Or.inr (Or.inr ⟨rfl, (hl _ _ h2 h4).2.2.1⟩)), ?_⟩⟩
      have := (hl _ _ h2 h4).2.2.2
      simp only [alongEdge, this]
      simp
      omega
  have step : ∀ p q, p < nP → q < nP → (∃ i < 4, ∃ k < 4, patchEdge corner p i = patchEdge corner q k) → κ (p, l 0 0) = κ (q, l 0 0) := by
    rintro p q hp hq ⟨i, hi, k, hk, he⟩
    by_cases hpq : p = q
    · rw [hpq]
    obtain ⟨e1, e2⟩ := ho p hp q hq hpq i hi k hk he
    obtain ⟨X, hX, Y, hY, o⟩ := along i hi 0 h2
    obtain ⟨X', hX', Y', hY', o'⟩ := along k hk (2 ^ M - 1) (by omega)
    have n1 := node p hp X hX Y hY
    have n2 := node q hq X' hX' Y' hY'
    rw [← patch _ n1, ← patch _ n2]
    refine hκ _ _ i k n1 n2 ⟨hi, hk, Or.inl ⟨hpq, (o p).1, (o' q).1, Or.inr ⟨e1, e2, ?_⟩⟩⟩
    rw [(o p).2, (o' q).2]
    omega
  rw [patch a ha, patch b hb]
  have := hconn a.1 ha.1 b.1 hb.1
  generalize b.1 = q at this
  induction this with
  | refl => rfl
  | tail _ h ih => exact ih.trans (step _ _ h.1 h.2.1 h.2.2)

/-- A sum with positive weights that vanishes. -/
theorem quad_zero {V : Type} (near : V → V → Bool) (corner : Nat → Nat → V) (np M : Nat) (hP : 0 < np) (t : Mesh.Tree ℝ)
    (ht : initElementTree near corner np M = some t) (geo : Nat → ℝ × ℝ → V3 × V3 × V3) (hreg : Spec.RegularPatches np geo) (es : EigenSolver) (deg : Nat) (hd1 : deg ≤ 19)
    (F : Addr → SurfPt → ℝ) (hF : ∀ a p, 0 ≤ F a p)
    (h0 : surfaceQuad t geo (gaussSquare es 50 deg) (leaves np M) (fun a p => ‖cross3 p.dx p.dy‖ * F a p) = 0) (a : Addr) (ha : IsNode np M a)
    (i j : Nat) (hi : i < deg + 1) (hj : j < deg + 1) :
    F a (elementPoint t geo a ((gaussLegendreRule es (deg + 1)).xi i, (gaussLegendreRule es (deg + 1)).xi j)) = 0 := by
  have hsel : gaussSquare es 50 deg = tensorRule (gaussLegendreRule es (deg + 1)) := (C46_select _ 50 deg (by omega)).2
  obtain ⟨q1, q2, q3, -⟩ := C47_tables es (deg + 1) (by omega) (by omega)
  set q := gaussLegendreRule es (deg + 1) with hq
  rw [hsel] at h0
  have hw : ∀ j < (tensorRule q).size, 0 < (tensorRule q).w j := by
    intro j hj
    have hj : j < q.size * q.size := hj
    rw [q1] at hj
    have e : (tensorRule q).w j = q.w (j / (deg + 1)) * q.w (j % (deg + 1)) := by simp only [tensorRule, q1]
    rw [e]
    exact mul_pos (q2 _ ((Nat.div_lt_iff_lt_mul (by omega)).2 hj)).2.2 (q2 _ (Nat.mod_lt _ (by omega))).2.2
  have hsq : ∀ j < (tensorRule q).size, Spec.ClosedSquare ((tensorRule q).xi j) :=
    tensorRule_closed _ fun i hi => ⟨(q2 i (q1 ▸ hi)).1.le, (q2 i (q1 ▸ hi)).2.1.le⟩
  have term : ∀ a, ∀ j < (tensorRule q).size, 0 ≤ algebraMap ℝ ℝ (getH t a ^ 2 * (tensorRule q).w j) *
      (‖cross3 (elementPoint t geo a ((tensorRule q).xi j)).dx (elementPoint t geo a ((tensorRule q).xi j)).dy‖ * F a (elementPoint t geo a ((tensorRule q).xi j))) := by
    intro a j hj
    have := hw j hj
    have := hF a (elementPoint t geo a ((tensorRule q).xi j))
    simp only [Algebra.algebraMap_self, RingHom.id_apply]
    positivity
  unfold surfaceQuad at h0
  have hz := fun x => List.all_zero_of_le_zero_le_of_sum_eq_zero (x := x) (by
    intro x hx
    obtain ⟨b, _, rfl⟩ := List.mem_map.1 hx
    exact sum_nonneg fun j hj => term b j (mem_range.1 hj)) h0
  have hz := hz _ (List.mem_map.2 ⟨a, mem_leaves.2 ha, rfl⟩)
  rw [sum_eq_zero_iff_of_nonneg fun j hj => term a j (mem_range.1 hj)] at hz
  have hlt : i * (deg + 1) + j < (tensorRule q).size := by
    show _ < q.size * q.size
    rw [q1]
    calc i * (deg + 1) + j < i * (deg + 1) + (deg + 1) := by omega
      _ = (i + 1) * (deg + 1) := by ring
      _ ≤ _ := Nat.mul_le_mul_right _ hi
  have e : (tensorRule q).xi (i * (deg + 1) + j) = (q.xi i, q.xi j) := by
    simp only [tensorRule, q1]
    rw [show (i * (deg + 1) + j) / (deg + 1) = i by rw [Nat.mul_comm, Nat.mul_add_div (by omega), Nat.div_eq_of_lt hj, Nat.add_zero],
      show (i * (deg + 1) + j) % (deg + 1) = j by rw [Nat.mul_comm, Nat.mul_add_mod, Nat.mod_eq_of_lt hj]]
  have := hz _ (mem_range.2 hlt)
  have c1 : (getH t a ^ 2 * (tensorRule q).w (i * (deg + 1) + j)) ≠ 0 := by
    have := (hw _ hlt).ne'
    have : getH t a ≠ 0 := by unfold getH; positivity
    positivity
  have c2 : ‖cross3 (elementPoint t geo a ((tensorRule q).xi (i * (deg + 1) + j))).dx (elementPoint t geo a ((tensorRule q).xi (i * (deg + 1) + j))).dy‖ ≠ 0 :=
    norm_ne_zero_iff.2 (node_regular near corner np M hP t ht geo hreg M le_rfl a ha _ (hsq _ hlt) 1)
  simp only [Algebra.algebraMap_self, RingHom.id_apply, mul_eq_zero, c1, c2, false_or] at this
  rwa [e] at this

/-- A function that is constant on an element has constant coefficients. -/
theorem const_coeff (T f : EMat ℝ) (nE P n : Nat) (h κ : ℝ) (hh : h ≠ 0)
    (hc : ∀ s : ℝ × ℝ, 0 < s.1 → s.1 < 1 → 0 < s.2 → s.2 < 1 → discreteFunction T f nE P 0 n h s = κ) :
    ∀ i < (P + 1) * (P + 1), localCoeff T f nE P 0 n i = h * κ := by
  have := grid_unisolvent P (P + 1) (by omega) (fun k => ((k : ℝ) + 1) / (P + 2)) (by
    intro i j hij _
    have : (i : ℝ) < j := by exact_mod_cast hij
    have : (0 : ℝ) < P + 2 := by positivity
    gcongr) (fun i => localCoeff T f nE P 0 n i - h * κ) (by
    intro a ha b hb
    have bound : ∀ k < P + 1, 0 < ((k : ℝ) + 1) / (P + 2) ∧ ((k : ℝ) + 1) / (P + 2) < 1 := by
      intro k hk
      have : (k : ℝ) + 1 < P + 2 := by exact_mod_cast (by omega : k + 1 < P + 2)
      exact ⟨by positivity, by rw [div_lt_one (by positivity)]; exact this⟩
    have := hc (((a : ℝ) + 1) / (P + 2), ((b : ℝ) + 1) / (P + 2)) (bound a ha).1 (bound a ha).2 (bound b hb).1 (bound b hb).2
    unfold discreteFunction at this
    simp only [Algebra.algebraMap_self, RingHom.id_apply] at this
    rw [one_div, inv_mul_eq_iff_eq_mul₀ hh] at this
    simp only [sub_mul, sum_sub_distrib]
    rw [this, ← mul_sum, shape_sum_one]
    ring)
  intro i hi
  exact sub_eq_zero.1 (this i hi)

/-- A singular symmetric matrix with nonnegative quadratic form and one-dimensional kernel: solvability. -/
theorem solvable_mod (n : Nat) (A : Nat → Nat → ℝ) (e : Nat → ℝ) (he : ∃ c < n, e c ≠ 0) (hsym : ∀ c < n, ∀ d < n, A c d = A d c)
    (hker : ∀ x : Nat → ℝ, (∀ c < n, ∑ d ∈ range n, A c d * x d = 0) ↔ ∃ κ, ∀ c < n, x c = κ * e c)
    (hnn : ∀ x : Nat → ℝ, ∑ c ∈ range n, x c * ∑ d ∈ range n, A c d * x d = 0 → ∀ c < n, ∑ d ∈ range n, A c d * x d = 0)
    (hpos : ∀ x : Nat → ℝ, 0 ≤ ∑ c ∈ range n, x c * ∑ d ∈ range n, A c d * x d) (v : Nat → ℝ) :
    (∃ x : Nat → ℝ, ∀ c < n, ∑ d ∈ range n, A c d * x d = v c) ↔ ∑ c ∈ range n, e c * v c = 0 := by
  have hAe : ∀ c < n, ∑ d ∈ range n, A c d * e d = 0 := (hker e).2 ⟨1, fun c _ => by rw [one_mul]⟩
  have orth : ∀ x : Nat → ℝ, ∑ c ∈ range n, e c * ∑ d ∈ range n, A c d * x d = 0 := by
    intro x
    simp only [mul_sum]
    rw [sum_comm]
    refine sum_eq_zero fun d hd => ?_
    rw [sum_congr rfl fun c hc => by rw [hsym c (mem_range.1 hc) d (mem_range.1 hd), show e c * (A d c * x d) = (A d c * e c) * x d by ring], ← sum_mul,
      hAe d (mem_range.1 hd), zero_mul]
  have ee : 0 < ∑ c ∈ range n, e c * e c := by
    obtain ⟨c, hc, h⟩ := he
    exact sum_pos' (fun c _ => mul_self_nonneg _) ⟨c, mem_range.2 hc, mul_self_pos.2 h⟩
  constructor
  · rintro ⟨x, hx⟩
    rw [← orth x]
    exact sum_congr rfl fun c hc => by rw [hx c (mem_range.1 hc)]
  · intro hv
    have rank : ∀ (x : Nat → ℝ) c, ∑ d ∈ range n, (A c d + e c * e d) * x d = ∑ d ∈ range n, A c d * x d + e c * ∑ d ∈ range n, e d * x d := by
      intro x c
      rw [mul_sum, ← sum_add_distrib]
      exact sum_congr rfl fun d _ => by ring
    obtain ⟨x, hx, -⟩ := solvable n (fun c d => A c d + e c * e d) (by
      intro x hx
      have h0 : ∑ c ∈ range n, x c * ∑ d ∈ range n, A c d * x d + (∑ d ∈ range n, e d * x d) * ∑ d ∈ range n, e d * x d = 0 := by
        have : ∑ c ∈ range n, x c * ∑ d ∈ range n, (A c d + e c * e d) * x d = 0 := sum_eq_zero fun c hc => by rw [hx c (mem_range.1 hc), mul_zero]
        rw [← this]
        simp only [rank, mul_add, sum_add_distrib]
        congr 1
        rw [sum_mul]
        exact sum_congr rfl fun c _ => by ring
      have p1 := hpos x
      have p2 := mul_self_nonneg (∑ d ∈ range n, e d * x d)
      obtain ⟨κ, hκ⟩ := (hker x).1 (hnn x (by linarith))
      have p3 : ∑ d ∈ range n, e d * x d = 0 := by
        by_contra h
        have : 0 < (∑ d ∈ range n, e d * x d) * ∑ d ∈ range n, e d * x d := by positivity
        linarith
      rw [sum_congr rfl fun d hd => by rw [hκ d (mem_range.1 hd), show e d * (κ * e d) = κ * (e d * e d) by ring], ← mul_sum] at p3
      have k0 : κ = 0 := by
        rcases mul_eq_zero.1 p3 with h | h
        · exact h
        · exact absurd h ee.ne'
      intro c hc
      rw [hκ c hc, k0, zero_mul]) v
    refine ⟨x, ?_⟩
    have p : ∑ d ∈ range n, e d * x d = 0 := by
      have h1 : ∑ c ∈ range n, e c * ∑ d ∈ range n, (A c d + e c * e d) * x d = 0 := by
        rw [← hv]
        exact sum_congr rfl fun c hc => by rw [hx c (mem_range.1 hc)]
      simp only [rank, mul_add, sum_add_distrib, orth, zero_add] at h1
      rw [sum_congr rfl fun c _ => by rw [← mul_assoc], ← sum_mul] at h1
      rcases mul_eq_zero.1 h1 with h | h
      · exact absurd h ee.ne'
      · exact h
    intro c hc
    have := hx c hc
    rw [rank, p, mul_zero, add_zero] at this
    exact this

end WellPosed

open Spec Spl Mesh Projector Glue Ansatz Refine Refinement SpaceExact WellPosed LocalOperator

variable {V : Type} (near : V → V → Bool) (corner : Nat → Nat → V)

/-- C83 (Laplace-Beltrami matrix of continuous spaces on connected surfaces): symmetric, its quadratic form is nonnegative, and it maps exactly the vectors of constant
functions to zero.  The system of the Laplace-Beltrami equation with data `g` has a solution exactly if the quadrature of `g` over the surface is zero, and the solution is
unique up to constants. -/
theorem C83_laplace_beltrami (junkP : Nat → ℝ) (junkM : Nat → Nat → ℝ) (solve) (hs : SolvesSystems solve)
    (P M nP rep : Nat) (hnP : 0 < nP) (hP0 : 0 < P) (hP : P ≤ 4) (hrep : 1 ≤ rep) (hrP : rep ≤ P)
    (hc : ConformingPatches near corner nP) (ho : OrientedPatches corner nP) (hconn : ConnectedPatches corner nP)
    (t : Mesh.Tree ℝ) (ht : initElementTree near corner nP M = some t) (T : EMat ℝ) (hT : transformationCont junkP junkM solve t P M nP rep = some T)
    (geo : Nat → ℝ × ℝ → V3 × V3 × V3) (hreg : Spec.RegularPatches nP geo)
    (es : EigenSolver) (deg : Nat) (hd : P ≤ deg) (hd1 : deg ≤ 19) (junk junk' : Nat → ℝ) :
    let space : FunctionEval.Space ℝ := ⟨t, P, geo, T⟩
    ∃ els A, elements space.t = some els ∧ LocalOperator.compute junk LocalOperator.laplaceBeltrami space (gaussSquare es 50 deg) = some A ∧
      A.rows = T.cols ∧ A.cols = T.cols ∧ (∀ c < T.cols, ∀ d < T.cols, A.at' c d = A.at' d c) ∧
      (∀ x : Nat → ℝ, 0 ≤ ∑ c ∈ range T.cols, x c * ∑ d ∈ range T.cols, A.at' c d * x d) ∧
      (∀ x : Nat → ℝ, (∀ c < T.cols, ∑ d ∈ range T.cols, A.at' c d * x d = 0) ↔
        ∃ κ : ℝ, ∀ a, IsNode nP M a → ∀ s : ℝ × ℝ, discreteFunction T ⟨T.cols, 1, fun c _ => x c⟩ (nP * 4 ^ M) P 0 (t.id a) (1 / 2 ^ M) s = κ) ∧
      ∀ g : V3 → ℝ, ∃ v, LinearForm.compute junk' (LinearForm.dirichlet g) space (gaussSquare es 50 deg) = some v ∧
        ((∃ x : Nat → ℝ, ∀ c < T.cols, ∑ d ∈ range T.cols, A.at' c d * x d = v.at' c 0) ↔
          surfaceQuad t geo (gaussSquare es 50 deg) els (fun _ p => g p.f * ‖cross3 p.dx p.dy‖) = 0) ∧
        ∀ x y : Nat → ℝ, (∀ c < T.cols, ∑ d ∈ range T.cols, A.at' c d * x d = v.at' c 0) → (∀ c < T.cols, ∑ d ∈ range T.cols, A.at' c d * y d = v.at' c 0) →
          ∃ κ : ℝ, ∀ a, IsNode nP M a → ∀ s : ℝ × ℝ, discreteFunction T ⟨T.cols, 1, fun c _ => x c⟩ (nP * 4 ^ M) P 0 (t.id a) (1 / 2 ^ M) s =
            discreteFunction T ⟨T.cols, 1, fun c _ => y c⟩ (nP * 4 ^ M) P 0 (t.id a) (1 / 2 ^ M) s + κ := by
  intro space
  have hsel : gaussSquare es 50 deg = tensorRule (gaussLegendreRule es (deg + 1)) := (C46_select _ 50 deg (by omega)).2
  obtain ⟨q1, q2, q3, -⟩ := C47_tables es (deg + 1) (by omega) (by omega)
  have hin : ∀ j < (gaussSquare es 50 deg).size, (0 < ((gaussSquare es 50 deg).xi j).1 ∧ ((gaussSquare es 50 deg).xi j).1 < 1 ∧
      0 < ((gaussSquare es 50 deg).xi j).2 ∧ ((gaussSquare es 50 deg).xi j).2 < 1) ∧ 0 < (gaussSquare es 50 deg).w j := by
    rw [hsel]
    intro j hj
    have hj : j < (gaussLegendreRule es (deg + 1)).size * (gaussLegendreRule es (deg + 1)).size := hj
    rw [q1] at hj
    have b1 := q2 _ ((Nat.div_lt_iff_lt_mul (by omega)).2 hj)
    have b2 := q2 _ (Nat.mod_lt j (by omega : 0 < deg + 1))
    simp only [tensorRule, q1]
    exact ⟨⟨b1.1, b1.2.1, b2.1, b2.2.1⟩, mul_pos b1.2.2 b2.2.2⟩
  have hQ1 : ∀ j < (gaussSquare es 50 deg).size, Spec.ClosedSquare ((gaussSquare es 50 deg).xi j) := fun j hj =>
    have := (hin j hj).1
    ⟨this.1.le, this.2.1.le, this.2.2.1.le, this.2.2.2.le⟩
  obtain ⟨u, g1, g2, g3, -, -, g6, -⟩ := tree_facts (K := ℝ) near corner nP M hnP
  obtain rfl : u = t := Option.some.inj (g1.symm.trans ht)
  have hrows : T.rows = 1 * ((P + 1) * (P + 1) * u.nElements) := by
    rw [WellPosed.cont_rows near corner junkP junkM solve hs P M nP rep hnP hP0 (by omega) hrep hrP hc ho u ht T hT, g3]; ring
  obtain ⟨els, A, h1, h2, h3, h4, h5, h6, h7, h8⟩ := C62_laplace_beltrami_form near corner nP M hnP space ht hrows junk (gaussSquare es 50 deg) hQ1 hreg
  obtain rfl : els = leaves nP M := (Option.some.inj (h1.symm.trans (elements_eq u nP M hnP g3 g6)))
  have hh : ∀ a, IsNode nP M a → getH u a = 1 / 2 ^ M := by
    intro a ha
    have := (g2 M le_rfl a (mem_leaves.2 ha)).2.1
    unfold getH
    rw [this, ha.2.1]
  have hp2 : (1 / 2 ^ M : ℝ) ≠ 0 := by positivity
  -- a vector whose quadratic form vanishes belongs to a constant
  have K1 : ∀ f : EMat ℝ, ∑ c ∈ range T.cols, f.at' c 0 * ∑ d ∈ range T.cols, A.at' c d * f.at' d 0 = 0 →
      ∃ κ : ℝ, ∀ a, IsNode nP M a → ∀ s : ℝ × ℝ, discreteFunction T f (nP * 4 ^ M) P 0 (u.id a) (1 / 2 ^ M) s = κ := by
    intro f h0
    set G : Addr → SurfPt → V3 := fun a p => surfGrad p.dx p.dy (discreteDx T f (nP * 4 ^ M) P 0 (u.id a) (getH u a) p.xi)
      (discreteDy T f (nP * 4 ^ M) P 0 (u.id a) (getH u a) p.xi) with hG
    have hgrad : ∀ a, IsNode nP M a → ∀ s, Spec.ClosedSquare s → IsSurfaceGradient (elementPoint u geo a s).dx (elementPoint u geo a s).dy
        (discreteDx T f (nP * 4 ^ M) P 0 (u.id a) (getH u a) s) (discreteDy T f (nP * 4 ^ M) P 0 (u.id a) (getH u a) s) (G a (elementPoint u geo a s)) :=
      fun a ha s hsq => surfGrad_spec _ _ (node_regular near corner nP M hnP u ht geo hreg M le_rfl a ha s hsq 1) _ _
    have hb := h6 f f G G (by
      intro a ha j hj
      have := hgrad a (mem_leaves.1 ha) _ (hQ1 j hj)
      rw [← g3] at this
      exact this) (by
      intro a ha j hj
      have := hgrad a (mem_leaves.1 ha) _ (hQ1 j hj)
      rw [← g3] at this
      exact this)
    have hz : surfaceQuad u geo (gaussSquare es 50 deg) (leaves nP M) (fun a p => ‖cross3 p.dx p.dy‖ * inner ℝ (G a p) (G a p)) = 0 := hb.symm.trans h0
    have hzero := quad_zero near corner nP M hnP u ht geo hreg es deg hd1 (fun a p => inner ℝ (G a p) (G a p)) (fun a p => real_inner_self_nonneg) hz
    have hloc : ∀ a, IsNode nP M a → ∀ i < (P + 1) * (P + 1), localCoeff T f (nP * 4 ^ M) P 0 (u.id a) i = localCoeff T f (nP * 4 ^ M) P 0 (u.id a) 0 := by
      intro a ha
      have hder : ∀ i < deg + 1, ∀ j < deg + 1,
          discreteDx T f (nP * 4 ^ M) P 0 (u.id a) (getH u a) ((gaussLegendreRule es (deg + 1)).xi i, (gaussLegendreRule es (deg + 1)).xi j) = 0 ∧
          discreteDy T f (nP * 4 ^ M) P 0 (u.id a) (getH u a) ((gaussLegendreRule es (deg + 1)).xi i, (gaussLegendreRule es (deg + 1)).xi j) = 0 := by
        intro i hi j hj
        have z := inner_self_eq_zero.1 (hzero a ha i j hi hj)
        have := hgrad a ha ((gaussLegendreRule es (deg + 1)).xi i, (gaussLegendreRule es (deg + 1)).xi j)
          ⟨(q2 i hi).1.le, (q2 i hi).2.1.le, (q2 j hj).1.le, (q2 j hj).2.1.le⟩
        rw [z] at this
        exact ⟨by rw [← this.2.1, inner_zero_left], by rw [← this.2.2, inner_zero_left]⟩
      have h1 : (1 / getH u a ^ 2 : ℝ) ≠ 0 := by rw [hh a ha]; positivity
      refine gradient_unisolvent P (deg + 1) (by omega) (gaussLegendreRule es (deg + 1)).xi q3 _ (fun i hi j hj => ?_) (fun i hi j hj => ?_)
      · have := (hder i hi j hj).1
        unfold discreteDx at this
        simp only [Algebra.algebraMap_self, RingHom.id_apply] at this
        exact (mul_eq_zero.1 this).resolve_left h1
      · have := (hder i hi j hj).2
        unfold discreteDy at this
        simp only [Algebra.algebraMap_self, RingHom.id_apply] at this
        exact (mul_eq_zero.1 this).resolve_left h1
    have hval : ∀ a, IsNode nP M a → ∀ s, discreteFunction T f (nP * 4 ^ M) P 0 (u.id a) (1 / 2 ^ M) s = 1 / (1 / 2 ^ M) * localCoeff T f (nP * 4 ^ M) P 0 (u.id a) 0 := by
      intro a ha s
      unfold discreteFunction
      simp only [Algebra.algebraMap_self, RingHom.id_apply]
      rw [sum_congr rfl fun i hi => by rw [hloc a ha i (mem_range.1 hi)], ← mul_sum, shape_sum_one, mul_one]
    obtain ⟨l, l1, l2, -⟩ := exists_path M 0 0 (by positivity) (by positivity)
    refine ⟨1 / (1 / 2 ^ M) * localCoeff T f (nP * 4 ^ M) P 0 (u.id (0, l)) 0, fun a ha s => ?_⟩
    rw [hval a ha s]
    refine connected corner nP M ho hconn (fun a => 1 / (1 / 2 ^ M) * localCoeff T f (nP * 4 ^ M) P 0 (u.id a) 0) ?_ a (0, l) ha ⟨hnP, l1, l2⟩
    intro a b i k ha hb hf
    have := C64_continuous (R := ℝ) near corner junkP junkM solve hs P M nP rep hnP hP0 (by omega) hrep hrP hc ho u ht T hT f a b ha hb i k hf 0
    rw [WellPosed.ofReal_self, hval a ha, hval b hb] at this
    exact this
  -- constants are mapped to zero
  have K2 : ∀ (f : EMat ℝ) (κ : ℝ), (∀ a, IsNode nP M a → ∀ s : ℝ × ℝ, 0 < s.1 → s.1 < 1 → 0 < s.2 → s.2 < 1 →
      discreteFunction T f (nP * 4 ^ M) P 0 (u.id a) (1 / 2 ^ M) s = κ) → ∀ c < T.cols, ∑ d ∈ range T.cols, A.at' c d * f.at' d 0 = 0 := by
    intro f κ hκ
    refine h8 f ?_
    intro a ha j _
    have ha := mem_leaves.1 ha
    have := const_coeff T f (nP * 4 ^ M) P (u.id a) (1 / 2 ^ M) κ hp2 (hκ a ha)
    rw [← g3] at this
    constructor
    · unfold discreteDx
      simp only [Algebra.algebraMap_self, RingHom.id_apply]
      rw [sum_congr rfl fun i hi => by rw [this i (mem_range.1 hi)], ← mul_sum, shapeDx_sum_zero, mul_zero, mul_zero]
    · unfold discreteDy
      simp only [Algebra.algebraMap_self, RingHom.id_apply]
      rw [sum_congr rfl fun i hi => by rw [this i (mem_range.1 hi)], ← mul_sum, shapeDy_sum_zero, mul_zero, mul_zero]
  have lin : ∀ (x y : Nat → ℝ) (α : ℝ) (n : Nat) (s : ℝ × ℝ), discreteFunction T ⟨T.cols, 1, fun c _ => x c + α * y c⟩ (nP * 4 ^ M) P 0 n (1 / 2 ^ M) s =
      discreteFunction T ⟨T.cols, 1, fun c _ => x c⟩ (nP * 4 ^ M) P 0 n (1 / 2 ^ M) s + α * discreteFunction T ⟨T.cols, 1, fun c _ => y c⟩ (nP * 4 ^ M) P 0 n (1 / 2 ^ M) s := by
    intro x y α n s
    rw [← discreteFunction_expand, ← discreteFunction_expand T ⟨T.cols, 1, fun c _ => x c⟩, ← discreteFunction_expand T ⟨T.cols, 1, fun c _ => y c⟩, mul_sum, ← sum_add_distrib]
    exact sum_congr rfl fun c _ => by ring
  have kernel : ∀ x : Nat → ℝ, (∀ c < T.cols, ∑ d ∈ range T.cols, A.at' c d * x d = 0) ↔
        ∃ κ : ℝ, ∀ a, IsNode nP M a → ∀ s : ℝ × ℝ, discreteFunction T ⟨T.cols, 1, fun c _ => x c⟩ (nP * 4 ^ M) P 0 (u.id a) (1 / 2 ^ M) s = κ := by
    intro x
    constructor
    · intro hx
      exact K1 ⟨T.cols, 1, fun c _ => x c⟩ (sum_eq_zero fun c hc => by
        have := hx c (mem_range.1 hc)
        simp only at this ⊢
        rw [this, mul_zero])
    · rintro ⟨κ, hκ⟩
      exact K2 ⟨T.cols, 1, fun c _ => x c⟩ κ fun a ha s _ _ _ _ => hκ a ha s
  refine ⟨_, A, h1, h2, h3, h4, h5, fun x => h7 (fun j hj => (hin j hj).2.le) ⟨T.cols, 1, fun c _ => x c⟩, kernel, ?_⟩
  intro g
  obtain ⟨els', v, v0, v2, -, -, v3⟩ := C61_dirichlet near corner nP M hnP space ht hrows junk' (gaussSquare es 50 deg) g
  obtain rfl : els' = leaves nP M := (Option.some.inj (v0.symm.trans (elements_eq u nP M hnP g3 g6)))
  obtain ⟨e, -, -, he⟩ := C80_constants (R := ℝ) near corner junkP junkM solve hs P M nP rep hnP hP0 hP hrep hrP hc ho u ht T hT 1
  rw [WellPosed.ofReal_self] at he
  have he' : ∀ a, IsNode nP M a → ∀ s : ℝ × ℝ, 0 < s.1 → s.1 < 1 → 0 < s.2 → s.2 < 1 →
      discreteFunction T ⟨T.cols, 1, fun c _ => e.at' c 0⟩ (nP * 4 ^ M) P 0 (u.id a) (1 / 2 ^ M) s = 1 := by
    intro a ha s s1 s2 s3 s4
    refine Eq.trans ?_ (he a ha s s1.le s2 s3.le s4)
    rw [← discreteFunction_expand, ← discreteFunction_expand T e]
  have hker : ∀ x : Nat → ℝ, (∀ c < T.cols, ∑ d ∈ range T.cols, A.at' c d * x d = 0) ↔ ∃ κ, ∀ c < T.cols, x c = κ * e.at' c 0 := by
    intro x
    constructor
    · intro hx
      obtain ⟨κ, hκ⟩ := (kernel x).1 hx
      refine ⟨κ, fun c hcT => ?_⟩
      have := C83_continuous (R := ℝ) near corner junkP junkM solve hs P M nP rep hnP hP0 hP hrep hrP hc ho u ht T hT
        ⟨T.cols, 1, fun c _ => x c + -κ * e.at' c 0⟩ (by
          intro a ha s s1 s2 s3 s4
          rw [WellPosed.ofReal_self, lin x (fun c => e.at' c 0) (-κ), hκ a ha s, he' a ha s s1 s2 s3 s4]
          ring) c hcT
      simp only at this
      linarith
    · rintro ⟨κ, hκ⟩ c hcT
      rw [sum_congr rfl fun d hd => by rw [hκ d (mem_range.1 hd), show A.at' c d * (κ * e.at' d 0) = κ * (A.at' c d * e.at' d 0) by ring], ← mul_sum]
      rw [K2 e 1 (fun a ha s s1 s2 s3 s4 => he a ha s s1.le s2 s3.le s4) c hcT, mul_zero]
  have hne : ∃ c < T.cols, e.at' c 0 ≠ 0 := by
    by_contra h
    push Not at h
    obtain ⟨l, l1, l2, -⟩ := exists_path M 0 0 (by positivity) (by positivity)
    have := he (0, l) ⟨hnP, l1, l2⟩ (1 / 2, 1 / 2) (by norm_num) (by norm_num) (by norm_num) (by norm_num)
    rw [← discreteFunction_expand] at this
    refine zero_ne_one (α := ℝ) (Eq.trans (Eq.symm ?_) this)
    exact sum_eq_zero fun c hc => by rw [h c (mem_range.1 hc), zero_mul]
  have mean : ∑ c ∈ range T.cols, e.at' c 0 * v.at' c 0 = surfaceQuad u geo (gaussSquare es 50 deg) (leaves nP M) (fun _ p => g p.f * ‖cross3 p.dx p.dy‖) := by
    rw [sum_congr rfl fun c hc => by rw [v3 c (mem_range.1 hc)], surfaceQuad_sum _ _ _ _ _ (fun d => e.at' d 0)]
    refine surfaceQuad_congr _ _ _ _ _ _ fun a ha j hj => ?_
    have ha := mem_leaves.1 ha
    have := he a ha ((gaussSquare es 50 deg).xi j) (hin j hj).1.1.le (hin j hj).1.2.1 (hin j hj).1.2.2.1.le (hin j hj).1.2.2.2
    rw [← discreteFunction_expand, ← g3, ← hh a ha] at this
    simp only [Algebra.algebraMap_self, RingHom.id_apply]
    refine Eq.trans ?_ (mul_one _)
    rw [← this, mul_sum]
    refine sum_congr rfl fun c _ => ?_
    change _ * (_ * _ * discreteFunction T _ u.nElements P 0 (u.id a) (getH u a) ((gaussSquare es 50 deg).xi j)) = _
    ring
  refine ⟨v, v2, ?_, ?_⟩
  · rw [← mean]
    exact solvable_mod T.cols A.at' (fun c => e.at' c 0) hne h5 hker (fun x hx => (kernel x).2 (K1 ⟨T.cols, 1, fun c _ => x c⟩ hx))
      (fun x => h7 (fun j hj => (hin j hj).2.le) ⟨T.cols, 1, fun c _ => x c⟩) fun c => v.at' c 0
  · intro x y hx hy
    obtain ⟨κ, hκ⟩ := (kernel fun c => x c + -1 * y c).1 (by
      intro c hcT
      have : ∑ d ∈ range T.cols, A.at' c d * (x d + -1 * y d) = ∑ d ∈ range T.cols, A.at' c d * x d - ∑ d ∈ range T.cols, A.at' c d * y d := by
        rw [← sum_sub_distrib]
        exact sum_congr rfl fun d _ => by ring
      rw [this, hx c hcT, hy c hcT, sub_self])
    refine ⟨κ, fun a ha s => ?_⟩
    have := hκ a ha s
    rw [lin x y (-1)] at this
    linarith

/-! ### the hypotheses can be met -/

/-- The surface of the cube is connected. -/
theorem WellPosed.cube_connected : ConnectedPatches cubeCorner 6 := by
  have h : (List.range 6).all (fun p => (List.range 6).all fun q => (List.range 6).any fun r =>
      ((List.range 4).any fun i => (List.range 4).any fun k => edgeTest cubeCorner p i r k) &&
      ((List.range 4).any fun i => (List.range 4).any fun k => edgeTest cubeCorner r i q k)) = true := by decide +kernel
  intro p hp q hq
  have h' := all_range (all_range h hp) hq
  obtain ⟨r, hr, h'⟩ := List.any_eq_true.1 h'
  have hr := List.mem_range.1 hr
  rw [Bool.and_eq_true] at h'
  have conv : ∀ p q, ((List.range 4).any fun i => (List.range 4).any fun k => edgeTest cubeCorner p i q k) = true →
      ∃ i < 4, ∃ k < 4, patchEdge cubeCorner p i = patchEdge cubeCorner q k := by
    intro p q h
    obtain ⟨i, hi, h⟩ := List.any_eq_true.1 h
    obtain ⟨k, hk, h⟩ := List.any_eq_true.1 h
    exact ⟨i, List.mem_range.1 hi, k, List.mem_range.1 hk, (edgeTest_iff _ _ _ _ _).1 h⟩
  exact Relation.ReflTransGen.tail (Relation.ReflTransGen.single ⟨hp, hr, conv _ _ h'.1⟩) ⟨hr, hq, conv _ _ h'.2⟩

/-- Continuous bilinear splines on the refined surface of a cube, with a regular parametrisation and the quadrature of the library: mass matrix and Laplace-Beltrami
matrix. -/
example (junk : Nat → ℝ) (junkM : Nat → Nat → ℝ) (es : EigenSolver) : ∃ (space : FunctionEval.Space ℝ) (A B : EMat ℝ),
    initElementTree (fun a b : Nat => a == b) cubeCorner 6 1 = some space.t ∧ transformationCont junk junkM solver space.t 1 1 6 1 = some space.trans ∧
    LocalOperator.compute (fun _ => 0) LocalOperator.identity space (gaussSquare es 50 2) = some A ∧
    LocalOperator.compute (fun _ => 0) LocalOperator.laplaceBeltrami space (gaussSquare es 50 2) = some B := by
  obtain ⟨t, ht, -⟩ := tree_facts (K := ℝ) (fun a b : Nat => a == b) cubeCorner 6 1 (by norm_num)
  obtain ⟨T, hT⟩ := Refinement.cube_cont junk junkM 1 1 1 (by norm_num) (by norm_num) (by norm_num) (by norm_num) t ht (by decide +kernel)
  have hreg : Spec.RegularPatches 6 (fun i s => (!₂[i + s.1, s.2, 0], !₂[1, 0, 0], !₂[0, 1, 0])) := by
    intro i _ s _ h
    have := congrFun (congrArg WithLp.ofLp h) 2
    simp [cross3] at this
  obtain ⟨-, A, -, hA, -⟩ := C83_mass_continuous _ _ junk junkM solver solver_solves 1 1 6 1 (by norm_num) (by norm_num) (by norm_num) (by norm_num) (by norm_num)
    cube_conforming cube_oriented t ht T hT _ hreg es 2 (by norm_num) (by norm_num) (fun _ => 0) (fun _ => 0)
  obtain ⟨-, B, -, hB, -⟩ := C83_laplace_beltrami _ _ junk junkM solver solver_solves 1 1 6 1 (by norm_num) (by norm_num) (by norm_num) (by norm_num) (by norm_num)
    cube_conforming cube_oriented WellPosed.cube_connected t ht T hT _ hreg es 2 (by norm_num) (by norm_num) (fun _ => 0) (fun _ => 0)
  exact ⟨⟨t, 1, _, T⟩, A, B, ht, hT, hA, hB⟩

end Bembel.Props
