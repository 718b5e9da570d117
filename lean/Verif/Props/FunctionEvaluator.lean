import Verif.Model.FunctionEvaluator
import Verif.Spec.DiscreteFunction
import Verif.Props.Operators
import Verif.Props.MeshGeom
import Verif.Props.H2
/-!
# Property theorems C35: evaluation of discrete functions
-/

set_option linter.unusedSectionVars false

namespace Bembel.Props
open Finset Bembel.Mesh Bembel.Spec Bembel.FunctionEval Bembel.SuperSpace

variable {R : Type} [Field R] [Algebra ℝ R]

theorem long_idx_lt {vd pp nE d n i : Nat} (hd : d < vd) (hn : n < nE) (hi : i < pp) :
    d * (pp * nE) + (pp * n + i) < vd * (pp * nE) := by
  have h1 : pp * n + i < pp * nE := by
    calc pp * n + i < pp * (n + 1) := by rw [Nat.mul_succ]; omega
      _ ≤ _ := Nat.mul_le_mul_left _ hn
  calc _ < (d + 1) * (pp * nE) := by rw [Nat.succ_mul]; omega
    _ ≤ _ := Nat.mul_le_mul_right _ hd

/-- Coefficients after `set_function`. -/
theorem coeffs_eq {vd : Nat} {e : Evaluator R} {f : EMat R} {nE P : Nat} (hvd : 0 < vd)
    (hT : e.space.trans.rows = vd * ((P + 1) * (P + 1) * nE)) (hf : f.rows = e.space.trans.cols) (hc : f.cols = 1) :
    ∃ e', setFunction vd e f = some e' ∧ e'.space = e.space ∧ e'.pp = e.pp ∧ e'.reordSize = e.reordSize ∧ e'.reord = e.reord ∧
      e'.fn.rows = (P + 1) * (P + 1) * nE ∧ e'.fn.cols = vd ∧
      ∀ d < vd, ∀ n < nE, ∀ i < (P + 1) * (P + 1), e'.fn.at' ((P + 1) * (P + 1) * n + i) d =
        localCoeff e.space.trans f nE P d n i := by
  unfold setFunction EMat.mul
  rw [if_pos hf.symm]
  simp only [Option.bind_eq_bind, Option.bind_some, EMat.reshape, hT, hc, mul_one]
  rw [Nat.mul_div_cancel_left _ hvd, if_pos (by rw [Nat.mul_comm])]
  refine ⟨_, rfl, rfl, rfl, rfl, rfl, rfl, rfl, ?_⟩
  intro d hd n hn i hi
  have hlt := long_idx_lt hd hn hi
  simp only [localCoeff, Nat.mod_eq_of_lt hlt, Nat.div_eq_of_lt hlt]

/-- The evaluator holds the function of the vector `f`. -/
structure Holds (vd : Nat) (e : Evaluator R) (f : EMat R) : Prop where
  pp : e.pp = (e.space.P + 1) * (e.space.P + 1)
  rows : e.fn.rows = e.pp * e.space.t.nElements
  cols : e.fn.cols = vd
  entry : ∀ d < vd, ∀ n < e.space.t.nElements, ∀ i < (e.space.P + 1) * (e.space.P + 1),
    e.fn.at' ((e.space.P + 1) * (e.space.P + 1) * n + i) d = localCoeff e.space.trans f e.space.t.nElements e.space.P d n i

theorem block_eq {vd : Nat} {e : Evaluator R} {f : EMat R} (h : Holds vd e f) {a : Addr}
    (ha : e.space.t.id a < e.space.t.nElements) : ∃ c, coeffs vd e a = some c ∧ c.rows = (e.space.P + 1) * (e.space.P + 1) ∧
      ∀ d < vd, ∀ i < (e.space.P + 1) * (e.space.P + 1), c.at' i d =
        localCoeff e.space.trans f e.space.t.nElements e.space.P d (e.space.t.id a) i := by
  unfold coeffs EMat.block
  have : e.pp * e.space.t.id a + e.pp ≤ e.pp * e.space.t.nElements := by
    rw [← Nat.mul_succ]; exact Nat.mul_le_mul_left _ ha
  rw [if_pos ⟨by rw [h.rows]; exact this, by rw [h.cols, Nat.zero_add]⟩]
  refine ⟨_, rfl, h.pp, ?_⟩
  intro d hd i hi
  simp only [Nat.zero_add]
  rw [h.pp]
  exact h.entry d hd _ ha i hi

theorem evaluate_eq (junk : Nat → R) {e : Evaluator R} {f : EMat R} (h : Holds 1 e f) {a : Addr}
    (ha : e.space.t.id a < e.space.t.nElements) (p : SurfPt) : evaluate junk e a p =
      some (discreteFunction e.space.trans f e.space.t.nElements e.space.P 0 (e.space.t.id a) (getH e.space.t a) p.xi) := by
  obtain ⟨c, h1, h2, h3⟩ := block_eq h ha
  unfold evaluate evalScalar discreteFunction
  rw [h1, Option.map_some, h2, div_eq_mul_inv, mul_comm, one_div, map_inv₀]
  congr 2
  refine sum_congr rfl fun i hi => ?_
  rw [h3 0 (by omega) i (mem_range.1 hi), basis_eq _ _ _ _ (mem_range.1 hi)]

theorem evaluateVector_eq (junk : Nat → R) {e : Evaluator R} {f : EMat R} (h : Holds 2 e f) {a : Addr}
    (ha : e.space.t.id a < e.space.t.nElements) (p : SurfPt) : evaluateVector junk e a p =
      some (discreteField e.space.trans f e.space.t.nElements e.space.P (e.space.t.id a) (getH e.space.t a) p.xi p.dx p.dy) := by
  obtain ⟨c, h1, h2, h3⟩ := block_eq h ha
  unfold evaluateVector evalVector discreteField discreteFunction
  rw [h1, Option.map_some, h2]
  congr 1
  funext k
  have : ∀ d < 2, ∑ i ∈ range ((e.space.P + 1) * (e.space.P + 1)), c.at' i d * basis junk e.space.P p.xi i =
      ∑ i ∈ range ((e.space.P + 1) * (e.space.P + 1)), localCoeff e.space.trans f e.space.t.nElements e.space.P d (e.space.t.id a) i *
        algebraMap ℝ R (shape e.space.P i p.xi) := by
    intro d hd
    refine sum_congr rfl fun i hi => ?_
    rw [h3 d hd i (mem_range.1 hi), basis_eq _ _ _ _ (mem_range.1 hi)]
  simp only [this 0 (by omega), this 1 (by omega), one_div, map_inv₀]
  ring

theorem evaluateDiv_eq (junk : Nat → R) {e : Evaluator R} {f : EMat R} (h : Holds 2 e f) {a : Addr}
    (ha : e.space.t.id a < e.space.t.nElements) (p : SurfPt) : evaluateDiv junk e a p =
      some (discreteDiv e.space.trans f e.space.t.nElements e.space.P (e.space.t.id a) (getH e.space.t a) p.xi) := by
  obtain ⟨c, h1, h2, h3⟩ := block_eq h ha
  unfold evaluateDiv evalDiv discreteDiv
  rw [h1, Option.map_some]
  simp only [h2, ← sum_add_distrib]
  congr 1
  have hsum : ∑ i ∈ range ((e.space.P + 1) * (e.space.P + 1)), (basisDx junk e.space.P p.xi i * c.at' i 0 +
      basisDy junk e.space.P p.xi i * c.at' i 1) = ∑ i ∈ range ((e.space.P + 1) * (e.space.P + 1)),
      (localCoeff e.space.trans f e.space.t.nElements e.space.P 0 (e.space.t.id a) i * algebraMap ℝ R (shapeDx e.space.P i p.xi) +
        localCoeff e.space.trans f e.space.t.nElements e.space.P 1 (e.space.t.id a) i * algebraMap ℝ R (shapeDy e.space.P i p.xi)) := by
    refine sum_congr rfl fun i hi => ?_
    rw [h3 0 (by omega) i (mem_range.1 hi), h3 1 (by omega) i (mem_range.1 hi), basisDx_eq _ _ _ _ (mem_range.1 hi),
      basisDy_eq _ _ _ _ (mem_range.1 hi)]
    ring
  rw [hsum, one_div, map_inv₀, map_pow, div_div, div_eq_mul_inv, pow_two (algebraMap ℝ R _), mul_comm]

/-- Initialisation on any object, for every vector of the right length. -/
theorem initWith_eq {V : Type} (near : V → V → Bool) (corner : Nat → Nat → V) (np M : Nat) (hP : 0 < np) (vd : Nat) (hvd : 0 < vd)
    (e : Evaluator R) (space : Space R) (ht : initElementTree near corner np M = some space.t)
    (hT : space.trans.rows = vd * ((space.P + 1) * (space.P + 1) * space.t.nElements)) (f : EMat R)
    (hf : f.rows = space.trans.cols) (hc : f.cols = 1) :
    ∃ e', initWith vd e space f = some e' ∧ Holds vd e' f ∧ e'.space = space ∧ e'.reordSize = space.t.nElements ∧
      computeReorderingVector (fun x : ℝ => ⌊x⌋) space.t = some e'.reord := by
  obtain ⟨t, h1, out, h2, -⟩ := C26_reordering (K := ℝ) near corner np M hP
  obtain rfl : space.t = t := Option.some.inj (ht.symm.trans h1)
  obtain ⟨e', g1, g2, g3, g4, g5, g6, g7, g8⟩ := coeffs_eq (e := { e with space := space }) hvd hT hf hc
  unfold initWith
  rw [g1, h2]
  simp only [Option.bind_eq_bind, Option.bind_some]
  simp only at g2
  refine ⟨_, rfl, ⟨?_, ?_, ?_, ?_⟩, g2, rfl, rfl⟩
  · simp only [g2]
  · simp only [g2, g6]
  · exact g7
  · simp only [g2]; exact g8

/-- The element found for a point of the closed unit square contains the point. -/
theorem elementOnPatch_eq {V : Type} (near : V → V → Bool) (corner : Nat → Nat → V) (np M : Nat) (hP : 0 < np)
    (e : Evaluator R) (ht : initElementTree near corner np M = some e.space.t) (hs : e.reordSize = e.space.t.nElements)
    (hr : computeReorderingVector (fun x : ℝ => ⌊x⌋) e.space.t = some e.reord) (patch : Nat) (hp : patch < np) (x : ℝ × ℝ)
    (hx : 0 ≤ x.1 ∧ x.1 ≤ 1 ∧ 0 ≤ x.2 ∧ x.2 ≤ 1) :
    ∃ a, elementOnPatch e patch x = some a ∧ IsNode np M a ∧ e.space.t.patch a = patch ∧
      e.space.t.id a < e.space.t.nElements ∧
      (e.space.t.llc a).1 ≤ x.1 ∧ x.1 ≤ (e.space.t.llc a).1 + getH e.space.t a ∧
      (e.space.t.llc a).2 ≤ x.2 ∧ x.2 ≤ (e.space.t.llc a).2 + getH e.space.t a := by
  obtain ⟨t, h1, out, h2, h3, -, -⟩ := C26_reordering (K := ℝ) near corner np M hP
  obtain ⟨t', k1, k2, k3, k4, k5, k6, k7⟩ := tree_facts (K := ℝ) near corner np M hP
  obtain ⟨t'', j1, j2, L, j3, j4, j5, j6⟩ := C20_uniform_mesh (K := ℝ) near corner np M hP
  obtain rfl : e.space.t = t := Option.some.inj (ht.symm.trans h1)
  obtain rfl : e.space.t = t' := Option.some.inj (ht.symm.trans k1)
  obtain rfl : e.space.t = t'' := Option.some.inj (ht.symm.trans j1)
  obtain rfl : e.reord = out := Option.some.inj (hr.symm.trans h2)
  have hn : (0 : ℝ) < 2 ^ M := by positivity
  -- one coordinate
  have one : ∀ y : ℝ, 0 ≤ y → y ≤ 1 → ∃ k : Nat, k < 2 ^ M ∧ min (max ⌊y / (1 / (((2 : Int) ^ M : Int) : ℝ))⌋ 0) (2 ^ M - 1) = (k : Int) ∧
      (k : ℝ) / 2 ^ M ≤ y ∧ y ≤ (k : ℝ) / 2 ^ M + 1 / 2 ^ M := by
    intro y hy0 hy1
    push_cast
    rw [div_div_eq_mul_div, div_one]
    have hf0 : 0 ≤ ⌊y * 2 ^ M⌋ := Int.floor_nonneg.2 (by positivity)
    rw [max_eq_left hf0]
    obtain ⟨n, hn'⟩ : ∃ n : Nat, 2 ^ M = n + 1 := Nat.exists_eq_succ_of_ne_zero (by positivity)
    have hn2 : ((2 : Int) ^ M) = (n : Int) + 1 := by exact_mod_cast hn'
    have hn3 : ((2 : ℝ) ^ M) = (n : ℝ) + 1 := by exact_mod_cast hn'
    obtain ⟨m, hm⟩ : ∃ m : Nat, ⌊y * 2 ^ M⌋ = m := ⟨_, (Int.toNat_of_nonneg hf0).symm⟩
    obtain ⟨q1, q2⟩ := Int.floor_eq_iff.1 hm
    refine ⟨min m n, ?_, ?_, ?_, ?_⟩
    · rw [hn']; omega
    · rw [hm, hn2]; push_cast; congr 1; omega
    · rw [div_le_iff₀ hn]
      refine le_trans ?_ q1
      exact_mod_cast min_le_left m n
    · rw [← add_div, le_div_iff₀ hn]
      rcases le_total m n with h | h
      · rw [min_eq_left h]; push_cast at q2 ⊢; linarith
      · rw [min_eq_right h, ← hn3]; nlinarith
  obtain ⟨kx, x1, x2, x3, x4⟩ := one x.1 hx.1 hx.2.1
  obtain ⟨ky, y1, y2, y3, y4⟩ := one x.2 hx.2.2.1 hx.2.2.2
  obtain ⟨a, a1, a2, a3, a4⟩ := h3 patch kx ky hp x1 y1
  have ha := mem_leaves.2 a1
  obtain ⟨g1, g2, g3, g4⟩ := k2 M le_rfl a ha
  have hh : getH e.space.t a = 1 / 2 ^ M := by unfold getH; rw [g2, a1.2.1]
  have hid : e.space.t.id a < np * 4 ^ M := by rw [g1]; exact pathId_lt ha
  have hel : L[e.space.t.id a]? = some a := by
    have hmem : a ∈ L := by
      have := elements_eq e.space.t np M hP k3 k6
      rw [this] at j3
      rw [← Option.some.inj j3]; exact ha
    obtain ⟨n, hn1, hn2⟩ := List.getElem_of_mem hmem
    have hn3 : L[n]? = some a := by rw [List.getElem?_eq_getElem hn1, hn2]
    rw [(j6 n a hn3).1]; exact hn3
  have h4 : 4 ^ M = 2 ^ M * 2 ^ M := by rw [← mul_pow]; rfl
  have htp : (kx : Int) + 2 ^ M * (ky : Int) + (patch : Int) * (2 ^ M * 2 ^ M) = ((patch * 4 ^ M + ky * 2 ^ M + kx : Nat) : Int) := by
    rw [h4]; push_cast; ring
  have hlt : patch * 4 ^ M + ky * 2 ^ M + kx < np * 4 ^ M := by
    calc patch * 4 ^ M + ky * 2 ^ M + kx < patch * 4 ^ M + 4 ^ M := by rw [h4]; nlinarith
      _ = (patch + 1) * 4 ^ M := by ring
      _ ≤ _ := Nat.mul_le_mul_right _ hp
  refine ⟨a, ?_, a1, a2, by rw [k3]; exact hid, ?_⟩
  · unfold elementOnPatch
    simp only [k4, x2, y2, htp]
    rw [if_pos ⟨by omega, by rw [hs, k3]; exact_mod_cast hlt⟩, j3]
    simp only [Option.bind_eq_bind, Option.bind_some, Int.toNat_natCast]
    rw [a4]; exact hel
  · rw [a3, hh]; exact ⟨x3, x4, y3, y4⟩

/-- C35: evaluating a scalar function (given by any vector of degrees of freedom) at any point `x` of the closed unit square of any
patch: there is an element of this patch whose closed square contains `x`, the local coordinates `s` of `x` are in the closed unit square
and are mapped to `x` by the affine map of the element, and the result is the value at `s` of the function on this element. -/
theorem C35_point {V : Type} (near : V → V → Bool) (corner : Nat → Nat → V) (np M : Nat) (hP : 0 < np)
    (e0 : Evaluator R) (space : Space R) (ht : initElementTree near corner np M = some space.t)
    (hT : space.trans.rows = 1 * ((space.P + 1) * (space.P + 1) * space.t.nElements)) (f : EMat R)
    (hf : f.rows = space.trans.cols) (hc : f.cols = 1) (junk : Nat → R) :
    ∃ e, initWith 1 e0 space f = some e ∧ ∀ patch < np, ∀ x : ℝ × ℝ, 0 ≤ x.1 ∧ x.1 ≤ 1 ∧ 0 ≤ x.2 ∧ x.2 ≤ 1 →
      ∃ (a : Addr) (s : ℝ × ℝ), IsNode np M a ∧ space.t.patch a = patch ∧
        (0 ≤ s.1 ∧ s.1 ≤ 1 ∧ 0 ≤ s.2 ∧ s.2 ≤ 1) ∧
        x = ((space.t.llc a).1 + getH space.t a * s.1, (space.t.llc a).2 + getH space.t a * s.2) ∧
        evaluateOnPatch junk e patch x = some (discreteFunction space.trans f space.t.nElements space.P 0 (space.t.id a)
          (getH space.t a) s) := by
  obtain ⟨e, h1, h2, rfl, h4, h5⟩ := initWith_eq near corner np M hP 1 (by omega) e0 space ht hT f hf hc
  refine ⟨e, h1, ?_⟩
  intro patch hp x hx
  obtain ⟨a, b1, b2, b3, b4, b5, b6, b7, b8⟩ := elementOnPatch_eq near corner np M hP e ht h4 h5 patch hp x hx
  have hh : 0 < getH e.space.t a := by unfold getH; positivity
  refine ⟨a, mapToReferenceElement e.space.t a x, b2, b3, ?_, ?_, ?_⟩
  · unfold mapToReferenceElement
    refine ⟨div_nonneg (by linarith) hh.le, (div_le_one hh).2 (by linarith), div_nonneg (by linarith) hh.le,
      (div_le_one hh).2 (by linarith)⟩
  · unfold mapToReferenceElement
    simp only [mul_div_cancel₀ _ hh.ne']
    ext <;> simp
  · unfold evaluateOnPatch
    rw [b1]
    simp only [Option.bind_eq_bind, Option.bind_some]
    rw [evaluate_eq junk h2 b4]
    rfl

/-- C35 for vector fields: the result is the field on the element, with the tangents of the patch at `x`. -/
theorem C35_vector {V : Type} (near : V → V → Bool) (corner : Nat → Nat → V) (np M : Nat) (hP : 0 < np)
    (e0 : Evaluator R) (space : Space R) (ht : initElementTree near corner np M = some space.t)
    (hT : space.trans.rows = 2 * ((space.P + 1) * (space.P + 1) * space.t.nElements)) (f : EMat R)
    (hf : f.rows = space.trans.cols) (hc : f.cols = 1) (junk : Nat → R) :
    ∃ e, initWith 2 e0 space f = some e ∧ ∀ patch < np, ∀ x : ℝ × ℝ, 0 ≤ x.1 ∧ x.1 ≤ 1 ∧ 0 ≤ x.2 ∧ x.2 ≤ 1 →
      ∃ (a : Addr) (s : ℝ × ℝ), IsNode np M a ∧ space.t.patch a = patch ∧
        (0 ≤ s.1 ∧ s.1 ≤ 1 ∧ 0 ≤ s.2 ∧ s.2 ≤ 1) ∧
        x = ((space.t.llc a).1 + getH space.t a * s.1, (space.t.llc a).2 + getH space.t a * s.2) ∧
        evaluateOnPatchVector junk e patch x = some (discreteField space.trans f space.t.nElements space.P (space.t.id a)
          (getH space.t a) s (space.geo patch x).2.1 (space.geo patch x).2.2) := by
  obtain ⟨e, h1, h2, rfl, h4, h5⟩ := initWith_eq near corner np M hP 2 (by omega) e0 space ht hT f hf hc
  refine ⟨e, h1, ?_⟩
  intro patch hp x hx
  obtain ⟨a, b1, b2, b3, b4, b5, b6, b7, b8⟩ := elementOnPatch_eq near corner np M hP e ht h4 h5 patch hp x hx
  have hh : 0 < getH e.space.t a := by unfold getH; positivity
  refine ⟨a, mapToReferenceElement e.space.t a x, b2, b3, ?_, ?_, ?_⟩
  · unfold mapToReferenceElement
    refine ⟨div_nonneg (by linarith) hh.le, (div_le_one hh).2 (by linarith), div_nonneg (by linarith) hh.le,
      (div_le_one hh).2 (by linarith)⟩
  · unfold mapToReferenceElement
    simp only [mul_div_cancel₀ _ hh.ne']
    ext <;> simp
  · unfold evaluateOnPatchVector
    rw [b1]
    simp only [Option.bind_eq_bind, Option.bind_some]
    rw [evaluateVector_eq junk h2 b4]
    rfl

/-- C35, element-wise evaluation and divergence of vector fields (used by the potentials). -/
theorem C35_divergence {V : Type} (near : V → V → Bool) (corner : Nat → Nat → V) (np M : Nat) (hP : 0 < np)
    (e0 : Evaluator R) (space : Space R) (ht : initElementTree near corner np M = some space.t)
    (hT : space.trans.rows = 2 * ((space.P + 1) * (space.P + 1) * space.t.nElements)) (f : EMat R)
    (hf : f.rows = space.trans.cols) (hc : f.cols = 1) (junk : Nat → R) :
    ∃ e, initWith 2 e0 space f = some e ∧ ∀ a, IsNode np M a → ∀ p : SurfPt,
      evaluateVector junk e a p = some (discreteField space.trans f space.t.nElements space.P (space.t.id a)
          (getH space.t a) p.xi p.dx p.dy) ∧
      evaluateDiv junk e a p = some (discreteDiv space.trans f space.t.nElements space.P (space.t.id a) (getH space.t a) p.xi) := by
  obtain ⟨e, h1, h2, rfl, h4, h5⟩ := initWith_eq near corner np M hP 2 (by omega) e0 space ht hT f hf hc
  obtain ⟨t', k1, k2, k3, k4, k5, k6, k7⟩ := tree_facts (K := ℝ) near corner np M hP
  obtain rfl : e.space.t = t' := Option.some.inj (ht.symm.trans k1)
  refine ⟨e, h1, ?_⟩
  intro a ha p
  have ha' := mem_leaves.2 ha
  have hid : e.space.t.id a < e.space.t.nElements := by
    rw [(k2 M le_rfl a ha').1, k3]; exact pathId_lt ha'
  exact ⟨evaluateVector_eq junk h2 hid p, evaluateDiv_eq junk h2 hid p⟩

/-- C35: element-wise evaluation is not affected by assignment: after `e = other`, `evaluate` gives the same as for `other`. -/
theorem C35_assign_evaluate (e other : Evaluator R) (junk : Nat → R) (a : Addr) (p : SurfPt) :
    evaluate junk (assign e other) a p = evaluate junk other a p ∧
    evaluateVector junk (assign e other) a p = evaluateVector junk other a p ∧
    evaluateDiv junk (assign e other) a p = evaluateDiv junk other a p := ⟨rfl, rfl, rfl⟩

/-- C35: assignment keeps the point evaluation only if the assigned object already had the same reordering vector (`operator=` does not
copy it). -/
theorem C35_assign_same (e other : Evaluator R) (hs : e.reordSize = other.reordSize) (hr : e.reord = other.reord) (junk : Nat → R)
    (patch : Nat) (x : ℝ × ℝ) :
    evaluateOnPatch junk (assign e other) patch x = evaluateOnPatch junk other patch x ∧
    evaluateOnPatchVector junk (assign e other) patch x = evaluateOnPatchVector junk other patch x := by
  have : assign e other = other := by
    unfold assign
    cases e; cases other
    simp_all
  rw [this]
  exact ⟨rfl, rfl⟩

/-- C35 is violated after assignment: point evaluation with an assigned object that was default constructed before is undefined at every
point of every patch, whatever was assigned (the reordering vector stays empty). -/
theorem C35_assign_violated (e other : Evaluator R) (h0 : e.reordSize = 0) (junk : Nat → R) (patch : Nat) (x : ℝ × ℝ) :
    evaluateOnPatch junk (assign e other) patch x = none ∧ evaluateOnPatchVector junk (assign e other) patch x = none := by
  have : elementOnPatch (assign e other) patch x = none := by
    unfold elementOnPatch
    simp only [assign, h0]
    rw [if_neg (by rintro ⟨h1, h2⟩; exact absurd (lt_of_le_of_lt h1 h2) (by simp))]
  unfold evaluateOnPatch evaluateOnPatchVector
  rw [this]
  exact ⟨rfl, rfl⟩

/-- Non-vacuity: six patches, two refinements, degree 1, the identity as transformation matrix, a vector of 384 unknowns. -/
example : ∃ t : Mesh.Tree ℝ, initElementTree (fun (a b : Nat) => a == b) (fun i j => i + j) 6 2 = some t ∧
    ∃ e v, initWith (R := ℝ) 1 ⟨⟨t, 1, fun _ _ => 0, ⟨384, 384, fun i j => if i = j then 1 else 0⟩⟩, ⟨0, 0, fun _ _ => 0⟩, 0, 0, fun _ => 0⟩
      ⟨t, 1, fun _ _ => 0, ⟨384, 384, fun i j => if i = j then 1 else 0⟩⟩ ⟨384, 1, fun i _ => i⟩ = some e ∧
      evaluateOnPatch (fun _ => 0) e 5 (1, 1 / 2) = some v := by
  obtain ⟨t, k1, k2, k3, -⟩ := tree_facts (K := ℝ) (fun (a b : Nat) => a == b) (fun i j => i + j) 6 2 (by omega)
  refine ⟨t, k1, ?_⟩
  obtain ⟨e, h1, h2⟩ := C35_point (R := ℝ) _ _ 6 2 (by omega)
    ⟨⟨t, 1, fun _ _ => 0, ⟨384, 384, fun i j => if i = j then 1 else 0⟩⟩, ⟨0, 0, fun _ _ => 0⟩, 0, 0, fun _ => 0⟩
    ⟨t, 1, fun _ _ => 0, ⟨384, 384, fun i j => if i = j then 1 else 0⟩⟩ k1 (by simp [k3]) ⟨384, 1, fun i _ => i⟩ rfl rfl (fun _ => 0)
  obtain ⟨a, s, -, -, -, -, h3⟩ := h2 5 (by omega) (1, 1 / 2) (by norm_num)
  exact ⟨e, _, h1, h3⟩

end Bembel.Props
