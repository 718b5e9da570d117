import Mathlib.LinearAlgebra.Matrix.ToLinearEquiv
import Mathlib.LinearAlgebra.Matrix.NonsingularInverse
import Mathlib.Tactic.Module
import Verif.Model.Interpolation
import Verif.Spec.Nurbs
import Verif.Lemmas.Unisolvent
import Verif.Lemmas.BezierSystem
/-!
# Property theorems C82: interpolation in the Bernstein basis
-/

set_option linter.unusedSectionVars false

open Finset

namespace Bembel.Props
open Bembel.Spec Bembel.Basis Bembel.Spl Bembel.Projector

namespace Interp

/-- A combination of the Bernstein polynomials of degree `p` that vanishes at `p + 1` different points is trivial. -/
theorem unisolvent (p : Nat) (c : Nat → ℝ) (x : Nat → ℝ) (hd : ∀ k ≤ p, ∀ l ≤ p, x k = x l → k = l)
    (h0 : ∀ k ≤ p, ∑ j ∈ range (p + 1), bern p j (x k) * c j = 0) : ∀ j ≤ p, c j = 0 := by
  let q : Polynomial ℝ := ∑ j ∈ range (p + 1), Polynomial.C (c j) * (Polynomial.C (p.choose j : ℝ) * Polynomial.X ^ j * (1 - Polynomial.X) ^ (p - j))
  have ev : ∀ y, q.eval y = ∑ j ∈ range (p + 1), bern p j y * c j := by
    intro y
    simp only [q, Polynomial.eval_finsetSum, Polynomial.eval_mul, Polynomial.eval_C, Polynomial.eval_pow, Polynomial.eval_X, Polynomial.eval_sub,
      Polynomial.eval_one, bern]
    exact sum_congr rfl fun j _ => by ring
  have deg : q.degree < ((range (p + 1)).card : WithBot ℕ) := by
    rw [card_range]
    refine lt_of_le_of_lt (Polynomial.degree_sum_le _ _) ?_
    refine (Finset.sup_lt_iff (WithBot.bot_lt_coe _)).2 fun j hj => ?_
    have hj := mem_range.1 hj
    refine lt_of_le_of_lt ?_ (show ((p : ℕ) : WithBot ℕ) < ((p + 1 : ℕ) : WithBot ℕ) from by exact_mod_cast Nat.lt_succ_self p)
    refine Polynomial.natDegree_le_iff_degree_le.1 ?_
    refine (Polynomial.natDegree_C_mul_le _ _).trans ?_
    rw [mul_assoc]
    refine (Polynomial.natDegree_C_mul_le _ _).trans ?_
    refine Polynomial.natDegree_mul_le.trans ?_
    have h1 : (1 - Polynomial.X : Polynomial ℝ).natDegree ≤ 1 := by
      refine (Polynomial.natDegree_sub_le _ _).trans ?_
      simp
    have h2 := Polynomial.natDegree_pow_le (p := (1 - Polynomial.X : Polynomial ℝ)) (n := p - j)
    have h3 : (p - j) * (1 - Polynomial.X : Polynomial ℝ).natDegree ≤ (p - j) * 1 := Nat.mul_le_mul_left _ h1
    rw [Polynomial.natDegree_X_pow]
    omega
  have q0 : q = 0 := by
    refine Polynomial.eq_zero_of_degree_lt_of_eval_index_eq_zero (s := range (p + 1)) (v := x) ?_ deg ?_
    · intro k hk l hl e
      have hk := mem_range.1 hk
      have hl := mem_range.1 hl
      exact hd k (by omega) l (by omega) e
    · intro k hk
      have hk := mem_range.1 hk
      rw [ev]; exact h0 k (by omega)
  refine bern_unisolvent p c (Projector.node p) (fun k hk => Projector.node_mem p k hk) (fun k _ l _ e => Projector.node_inj p k l e) ?_
  intro k _
  rw [← ev, q0, Polynomial.eval_zero]

theorem matrix_eq (junk : Nat → ℝ) (junkM : Nat → Nat → ℝ) (inv) (p : Nat) (hp : p ≤ 20) (mask : List ℝ) (hm : p < mask.length) :
    ∃ A, getInterpolationMatrix junk junkM inv (p : Int) mask = some (inv (p + 1) A) ∧ ∀ j ≤ p, ∀ i ≤ p, A j i = bern p i (mask.getD j 0) := by
  have hn : (((p : Nat) : Int) + 1).toNat = p + 1 := by omega
  unfold getInterpolationMatrix
  simp only [hn]
  have row : ∀ (j : Nat) (val : Nat → ℝ) (m0 : Nat → Nat → ℝ) (n : Nat), n ≤ 21 →
      ∃ m, forOpt n (fun m i => if i < MaxP + 1 then some (upd2 m j i (val i)) else none) m0 = some m ∧
        ∀ r c, m r c = if r = j ∧ c < n then val c else m0 r c := by
    intro j val m0 n
    induction n with
    | zero => intro _; exact ⟨m0, rfl, fun r c => by simp⟩
    | succ n ih =>
      intro hn
      obtain ⟨m, e1, e2⟩ := ih (by omega)
      refine ⟨upd2 m j n (val n), ?_, ?_⟩
      · rw [forOpt_succ, e1, Option.bind_some, if_pos (by simp [MaxP]; omega)]
      · intro r c
        unfold upd2
        by_cases h1 : r = j
        · by_cases h2 : c = n
          · subst h1; subst h2; simp
          · rw [if_neg (by tauto), e2]
            by_cases h3 : c < n
            · rw [if_pos ⟨h1, h3⟩, if_pos ⟨h1, by omega⟩]
            · rw [if_neg (by tauto), if_neg (by omega)]
        · rw [if_neg (by tauto), e2, if_neg (by tauto), if_neg (by tauto)]
  have rows : ∀ n ≤ p + 1, ∃ st : (Nat → Nat → ℝ) × (Nat → ℝ), forOpt n (fun (st : (Nat → Nat → ℝ) × (Nat → ℝ)) j => do
      let x ← mask[j]?
      let m ← forOpt (p + 1) (fun m i => if i < MaxP + 1 then some (upd2 m j i (handlerEvalBasis (p : Int) st.2 x i)) else none) st.1
      some (m, handlerEvalBasis (p : Int) st.2 x)) (junkM, junk) = some st ∧ ∀ j < n, ∀ i ≤ p, st.1 j i = bern p i (mask.getD j 0) := by
    intro n
    induction n with
    | zero => intro _; exact ⟨(junkM, junk), rfl, by omega⟩
    | succ n ih =>
      intro hn
      obtain ⟨st, e1, e2⟩ := ih (by omega)
      obtain ⟨m, f1, f2⟩ := row n (handlerEvalBasis (p : Int) st.2 (mask.getD n 0)) st.1 (p + 1) (by omega)
      have hx : mask[n]? = some (mask.getD n 0) := by
        rw [List.getD_eq_getElem?_getD, List.getElem?_eq_getElem (by omega)]; rfl
      refine ⟨(m, handlerEvalBasis (p : Int) st.2 (mask.getD n 0)), ?_, ?_⟩
      · rw [forOpt_succ, e1, Option.bind_some, hx]
        simp only [Option.bind_eq_bind, Option.bind_some]
        rw [f1]; rfl
      · intro j hj i hi
        show m j i = _
        rw [f2]
        by_cases h : j = n
        · rw [if_pos ⟨h, by omega⟩, (C04_dispatch_partial (p : Int) (by omega) (by omega) st.2 _).2.2.1, Int.toNat_natCast, C01_basis, if_pos hi, h]; rfl
        · rw [if_neg (by tauto), e2 j (by omega) i hi]
  obtain ⟨st, e1, e2⟩ := rows (p + 1) le_rfl
  refine ⟨st.1, ?_, fun j hj i hi => e2 j (by omega) i hi⟩
  simp only [Option.bind_eq_bind] at e1 ⊢
  rw [e1]; rfl

/-- Both products of the interpolation matrix and the matrix of basis values are the identity. -/
theorem inverse_eq (inv) (hinv : InvertsMatrices inv) (p : Nat) (x : Nat → ℝ) (hd : ∀ k ≤ p, ∀ l ≤ p, x k = x l → k = l) (A : Nat → Nat → ℝ)
    (hA : ∀ j ≤ p, ∀ i ≤ p, A j i = bern p i (x j)) :
    (∀ r ≤ p, ∀ c ≤ p, ∑ k ∈ range (p + 1), inv (p + 1) A r k * bern p c (x k) = if r = c then 1 else 0) ∧
    (∀ r ≤ p, ∀ c ≤ p, ∑ k ∈ range (p + 1), bern p k (x r) * inv (p + 1) A k c = if r = c then 1 else 0) := by
  have left := hinv (p + 1) A (by
    intro y hy c hc
    refine unisolvent p y x hd ?_ c (by omega)
    intro k hk
    rw [← hy k (by omega)]
    exact sum_congr rfl fun j hj => by rw [hA k hk j (by have := mem_range.1 hj; omega)])
  let L : Matrix (Fin (p + 1)) (Fin (p + 1)) ℝ := fun r c => inv (p + 1) A r c
  let B : Matrix (Fin (p + 1)) (Fin (p + 1)) ℝ := fun r c => A r c
  have hLB : L * B = 1 := by
    ext r c
    rw [Matrix.mul_apply, Matrix.one_apply]
    have := left r r.2 c c.2
    rw [← Fin.sum_univ_eq_sum_range (fun k => inv (p + 1) A r k * A k c)] at this
    rw [this]
    simp [Fin.ext_iff]
  have hBL : B * L = 1 := mul_eq_one_comm.1 hLB
  refine ⟨fun r hr c hc => ?_, fun r hr c hc => ?_⟩
  · rw [← left r (by omega) c (by omega)]
    exact sum_congr rfl fun k hk => by rw [hA k (by have := mem_range.1 hk; omega) c hc]
  · have := congrFun (congrFun hBL ⟨r, by omega⟩) ⟨c, by omega⟩
    rw [Matrix.mul_apply, Matrix.one_apply] at this
    rw [← Fin.sum_univ_eq_sum_range (fun k => bern p k (x r) * inv (p + 1) A k c)]
    rw [show (if r = c then (1 : ℝ) else 0) = if (⟨r, by omega⟩ : Fin (p + 1)) = ⟨c, by omega⟩ then 1 else 0 by simp, ← this]
    refine sum_congr rfl fun k _ => ?_
    show _ = A r k * inv (p + 1) A k c
    rw [hA r hr k (by have := k.2; omega)]

variable {V : Type} [AddCommGroup V] [Module ℝ V]

theorem set_apply (n off : Nat) (v c : Nat → V) (i : Nat) :
    forLoop n (fun c k => upd c (off + k) (v k)) c i = if off ≤ i ∧ i < off + n then v (i - off) else c i := by
  induction n with
  | zero => rw [forLoop_zero, if_neg (by omega)]
  | succ n ih =>
    rw [forLoop_succ]
    unfold upd
    by_cases h : i = off + n
    · rw [if_pos h, if_pos (by omega), h]; congr 1; omega
    · rw [if_neg h]
      show forLoop n (fun c k => upd c (off + k) (v k)) c i = _
      rw [ih]
      by_cases h1 : off ≤ i ∧ i < off + n
      · rw [if_pos h1, if_pos (by omega)]
      · rw [if_neg h1, if_neg (by omega)]

/-- What the loop over the increments computes. -/
theorem coefs_eq (junk : Nat → ℝ) (junkM : Nat → Nat → ℝ) (junkV : Nat → V) (inv) (p incr : Nat)
    (mask : List ℝ) (hm : mask.length = p + 1) (values : List V) (hv : incr * (p + 1) ≤ values.length) (coefs : Nat → V) (A : Nat → Nat → ℝ)
    (hA : getInterpolationMatrix junk junkM inv (p : Int) mask = some (inv (p + 1) A)) :
    ∃ out, getCoefficientsTo junk junkM junkV inv incr mask values coefs = some out ∧
      (∀ i < incr, ∀ j ≤ p, out (i * (p + 1) + j) = ∑ k ∈ range (p + 1), inv (p + 1) A j k • values.getD (i * (p + 1) + k) 0) ∧
      ∀ m, incr * (p + 1) ≤ m → out m = coefs m := by
  have hdeg : ((mask.length : Int) - 1) = (p : Int) := by omega
  have hn : (((p : Nat) : Int) + 1).toNat = p + 1 := by omega
  unfold getCoefficientsTo
  simp only [hdeg, hn, hA, Option.bind_eq_bind, Option.bind_some]
  have rhsEq : ∀ i < incr, ∀ n ≤ p + 1, ∃ rhs : Nat → V, forOpt n (fun rhs j => (values[i * (p + 1) + j]?).bind fun v => some (upd rhs j v)) junkV = some rhs ∧
      ∀ k < n, rhs k = values.getD (i * (p + 1) + k) 0 := by
    intro i hi n
    induction n with
    | zero => intro _; exact ⟨junkV, rfl, by omega⟩
    | succ n ih =>
      intro hn
      obtain ⟨rhs, e1, e2⟩ := ih (by omega)
      have hle : (i + 1) * (p + 1) ≤ incr * (p + 1) := Nat.mul_le_mul_right _ hi
      rw [Nat.succ_mul] at hle
      have hx : values[i * (p + 1) + n]? = some (values.getD (i * (p + 1) + n) 0) := by
        rw [List.getD_eq_getElem?_getD, List.getElem?_eq_getElem (by omega)]; rfl
      refine ⟨upd rhs n (values.getD (i * (p + 1) + n) 0), ?_, ?_⟩
      · rw [forOpt_succ, e1, Option.bind_some, hx, Option.bind_some]
      · intro k hk
        unfold upd
        by_cases h : k = n
        · rw [if_pos h, h]
        · rw [if_neg h, e2 k (by omega)]
  have main : ∀ n ≤ incr, ∃ out : Nat → V, forOpt n (fun coefs i =>
      (forOpt (p + 1) (fun rhs j => (values[i * (p + 1) + j]?).bind fun v => some (upd rhs j v)) junkV).bind fun rhs =>
        some (forLoop (p + 1) (fun coefs j => upd coefs (i * (p + 1) + j) (((List.range (p + 1)).map fun k => inv (p + 1) A j k • rhs k).sum)) coefs)) coefs =
          some out ∧
      (∀ i < n, ∀ j ≤ p, out (i * (p + 1) + j) = ∑ k ∈ range (p + 1), inv (p + 1) A j k • values.getD (i * (p + 1) + k) 0) ∧
      ∀ m, n * (p + 1) ≤ m → out m = coefs m := by
    intro n
    induction n with
    | zero => intro _; exact ⟨coefs, rfl, by omega, fun _ _ => rfl⟩
    | succ n ih =>
      intro hn
      obtain ⟨out, e1, e2, e3⟩ := ih (by omega)
      obtain ⟨rhs, f1, f2⟩ := rhsEq n (by omega) (p + 1) le_rfl
      refine ⟨_, by rw [forOpt_succ, e1, Option.bind_some, f1, Option.bind_some], ?_, ?_⟩
      · intro i hi j hj
        rw [set_apply]
        by_cases h : i = n
        · subst h
          rw [if_pos (by omega), Nat.add_sub_cancel_left, Finset.sum_range]
          rw [← List.sum_ofFn]
          congr 1
          apply List.ext_getElem (by simp)
          intro k h1 h2
          simp only [List.getElem_map, List.getElem_range, List.getElem_ofFn]
          rw [f2 k (by simpa using h1)]
        · have : (i + 1) * (p + 1) ≤ n * (p + 1) := Nat.mul_le_mul_right _ (by omega)
          rw [Nat.succ_mul] at this
          rw [if_neg (by omega)]
          exact e2 i (by omega) j hj
      · intro m hm
        rw [Nat.succ_mul] at hm
        rw [set_apply, if_neg (by omega), e3 m (by omega)]
  obtain ⟨out, h1, h2, h3⟩ := main incr le_rfl
  exact ⟨out, h1, h2, h3⟩

end Interp

variable {V : Type} [AddCommGroup V] [Module ℝ V]

/-- C82: for `p + 1 ≤ 21` different mask points the returned coefficients interpolate: on every increment the Bernstein polynomial with these
coefficients takes the given value at every mask point. -/
theorem C82_interpolates (junk : Nat → ℝ) (junkM : Nat → Nat → ℝ) (junkV : Nat → V) (inv) (hinv : InvertsMatrices inv) (p incr : Nat) (hp : p ≤ 20)
    (mask : List ℝ) (hm : mask.length = p + 1) (hd : mask.Nodup) (values : List V) (hv : incr * (p + 1) ≤ values.length) :
    ∃ coefs, getCoefficients junk junkM junkV inv incr mask values = some coefs ∧ coefs.length = incr * (p + 1) ∧
      ∀ i < incr, ∀ j ≤ p, ∑ k ∈ range (p + 1), bern p k (mask.getD j 0) • coefs.getD (i * (p + 1) + k) 0 = values.getD (i * (p + 1) + j) 0 := by
  obtain ⟨A, e0, e2⟩ := Interp.matrix_eq junk junkM inv p hp mask (by omega)
  obtain ⟨out, e1, e3, -⟩ := Interp.coefs_eq junk junkM junkV inv p incr mask hm values hv (fun _ => 0) A e0
  refine ⟨(List.range (incr * mask.length)).map out, ?_, by simp [hm], ?_⟩
  · unfold getCoefficients
    rw [e1]; rfl
  · intro i hi j hj
    have hx : ∀ k ≤ p, ∀ l ≤ p, mask.getD k 0 = mask.getD l 0 → k = l := by
      intro k hk l hl e
      simp only [List.getD_eq_getElem?_getD, List.getElem?_eq_getElem (show k < mask.length by omega),
        List.getElem?_eq_getElem (show l < mask.length by omega), Option.getD_some] at e
      exact (List.Nodup.getElem_inj_iff hd).1 e
    have hr := (Interp.inverse_eq inv hinv p (fun k => mask.getD k 0) hx A e2).2
    have hle : (i + 1) * (p + 1) ≤ incr * (p + 1) := Nat.mul_le_mul_right _ hi
    rw [Nat.succ_mul] at hle
    have hc : ∀ k ∈ range (p + 1), bern p k (mask.getD j 0) • ((List.range (incr * mask.length)).map out).getD (i * (p + 1) + k) 0 =
        ∑ l ∈ range (p + 1), (bern p k (mask.getD j 0) * inv (p + 1) A k l) • values.getD (i * (p + 1) + l) 0 := by
      intro k hk
      have hk := mem_range.1 hk
      have hg : ((List.range (incr * mask.length)).map out).getD (i * (p + 1) + k) 0 = out (i * (p + 1) + k) := by
        rw [List.getD_eq_getElem?_getD, List.getElem?_map, List.getElem?_range (by rw [hm]; omega), Option.map_some, Option.getD_some]
      rw [hg, e3 i hi k (by omega), smul_sum]
      exact sum_congr rfl fun l _ => by rw [mul_smul]
    rw [sum_congr rfl hc, sum_comm]
    have : ∀ l ∈ range (p + 1), ∑ k ∈ range (p + 1), (bern p k (mask.getD j 0) * inv (p + 1) A k l) • values.getD (i * (p + 1) + l) 0 =
        if j = l then values.getD (i * (p + 1) + l) 0 else 0 := by
      intro l hl
      rw [← sum_smul, hr j hj l (by have := mem_range.1 hl; omega)]
      split <;> simp
    rw [sum_congr rfl this, sum_ite_eq, if_pos (mem_range.2 (by omega))]

/-- C82: the interpolation reproduces Bernstein polynomials: if the values on every increment are those of a polynomial with Bernstein
coefficients `c`, exactly `c` is returned.  In particular the coefficients are determined by the values. -/
theorem C82_reproduces (junk : Nat → ℝ) (junkM : Nat → Nat → ℝ) (junkV : Nat → V) (inv) (hinv : InvertsMatrices inv) (p incr : Nat) (hp : p ≤ 20)
    (mask : List ℝ) (hm : mask.length = p + 1) (hd : mask.Nodup) (values : List V) (hv : incr * (p + 1) ≤ values.length) (c : List V)
    (hc : c.length = incr * (p + 1))
    (hval : ∀ i < incr, ∀ j ≤ p, values.getD (i * (p + 1) + j) 0 = ∑ k ∈ range (p + 1), bern p k (mask.getD j 0) • c.getD (i * (p + 1) + k) 0) :
    getCoefficients junk junkM junkV inv incr mask values = some c := by
  obtain ⟨A, e0, e2⟩ := Interp.matrix_eq junk junkM inv p hp mask (by omega)
  obtain ⟨out, e1, e3, -⟩ := Interp.coefs_eq junk junkM junkV inv p incr mask hm values hv (fun _ => 0) A e0
  unfold getCoefficients
  rw [e1]
  show some _ = some c
  congr 1
  have hx : ∀ k ≤ p, ∀ l ≤ p, mask.getD k 0 = mask.getD l 0 → k = l := by
    intro k hk l hl e
    simp only [List.getD_eq_getElem?_getD, List.getElem?_eq_getElem (show k < mask.length by omega),
      List.getElem?_eq_getElem (show l < mask.length by omega), Option.getD_some] at e
    exact (List.Nodup.getElem_inj_iff hd).1 e
  have hl := (Interp.inverse_eq inv hinv p (fun k => mask.getD k 0) hx A e2).1
  apply List.ext_getElem (by simp [hm, hc])
  intro m h1 h2
  rw [List.getElem_map, List.getElem_range]
  have hi : m / (p + 1) < incr := (Nat.div_lt_iff_lt_mul (by omega)).2 (by omega)
  have hj : m % (p + 1) ≤ p := by have := Nat.mod_lt m (show p + 1 > 0 by omega); omega
  have := e3 _ hi _ hj
  rw [Nat.div_add_mod' m (p + 1)] at this
  rw [this]
  have step : ∀ k ∈ range (p + 1), inv (p + 1) A (m % (p + 1)) k • values.getD (m / (p + 1) * (p + 1) + k) 0 =
      ∑ l ∈ range (p + 1), (inv (p + 1) A (m % (p + 1)) k * bern p l (mask.getD k 0)) • c.getD (m / (p + 1) * (p + 1) + l) 0 := by
    intro k hk
    rw [hval _ hi k (by have := mem_range.1 hk; omega), smul_sum]
    exact sum_congr rfl fun l _ => by rw [mul_smul]
  rw [sum_congr rfl step, sum_comm]
  have : ∀ l ∈ range (p + 1), ∑ k ∈ range (p + 1), (inv (p + 1) A (m % (p + 1)) k * bern p l (mask.getD k 0)) • c.getD (m / (p + 1) * (p + 1) + l) 0 =
      if m % (p + 1) = l then c.getD (m / (p + 1) * (p + 1) + l) 0 else 0 := by
    intro l hl'
    rw [← sum_smul, hl _ hj l (by have := mem_range.1 hl'; omega)]
    split <;> simp
  rw [sum_congr rfl this, sum_ite_eq, if_pos (mem_range.2 (by omega)), Nat.div_add_mod' m (p + 1)]
  simp [List.getD_eq_getElem?_getD, h2]

/-- C82: the pointer overload writes exactly the `incr * (p + 1)` entries and nothing behind them. -/
theorem C82_frame (junk : Nat → ℝ) (junkM : Nat → Nat → ℝ) (junkV : Nat → V) (inv) (p incr : Nat) (hp : p ≤ 20)
    (mask : List ℝ) (hm : mask.length = p + 1) (values : List V) (hv : incr * (p + 1) ≤ values.length) (buf : Nat → V) :
    ∃ out coefs, getCoefficientsTo junk junkM junkV inv incr mask values buf = some out ∧
      getCoefficients junk junkM junkV inv incr mask values = some coefs ∧
      ∀ m, out m = if m < incr * (p + 1) then coefs.getD m 0 else buf m := by
  obtain ⟨A, e0, -⟩ := Interp.matrix_eq junk junkM inv p hp mask (by omega)
  obtain ⟨out, e1, e2, e3⟩ := Interp.coefs_eq junk junkM junkV inv p incr mask hm values hv buf A e0
  obtain ⟨out', f1, f2, -⟩ := Interp.coefs_eq junk junkM junkV inv p incr mask hm values hv (fun _ => 0) A e0
  refine ⟨out, (List.range (incr * mask.length)).map out', e1, by unfold getCoefficients; rw [f1]; rfl, ?_⟩
  intro m
  by_cases h : m < incr * (p + 1)
  · rw [if_pos h, List.getD_eq_getElem?_getD, List.getElem?_map, List.getElem?_range (by rw [hm]; omega), Option.map_some, Option.getD_some]
    have hi : m / (p + 1) < incr := (Nat.div_lt_iff_lt_mul (by omega)).2 h
    have hj : m % (p + 1) ≤ p := by have := Nat.mod_lt m (show p + 1 > 0 by omega); omega
    have a := e2 _ hi _ hj
    have b := f2 _ hi _ hj
    rw [Nat.div_add_mod' m (p + 1)] at a b
    rw [a, b]
  · rw [if_neg h, e3 m (by omega)]

/-- C82: the points and coefficients fit together: with the mask of the library itself, degree `p` and a knot vector `u` without repetitions, the
values of a function `f` at the interpolation points give, on every interval `[u i, u (i+1)]`, the Bernstein coefficients of a polynomial that agrees with
`f` at all interpolation points of this interval; if `f` is on every interval a polynomial of degree `p`, its coefficients are returned. -/
theorem C82_library_mask (junk : Nat → ℝ) (junkM : Nat → Nat → ℝ) (junkV : Nat → V) (inv) (hinv : InvertsMatrices inv) (p : Nat) (hp : p ≤ 20)
    (u : List ℝ) (hu : 1 ≤ u.length) (f : ℝ → V) :
    ∃ coefs, getCoefficients junk junkM junkV inv (u.length - 1) (makeInterpolationMask (p + 1))
        ((makeInterpolationPoints (makeInterpolationMask (p + 1)) u).map f) = some coefs ∧ coefs.length = (u.length - 1) * (p + 1) ∧
      (∀ i < u.length - 1, ∀ j ≤ p, ∑ k ∈ range (p + 1), bern p k (((j : ℝ) + 1) / (p + 2)) • coefs.getD (i * (p + 1) + k) 0 =
        f (u.getD i 0 + ((j : ℝ) + 1) / (p + 2) * (u.getD (i + 1) 0 - u.getD i 0))) ∧
      ∀ c : Nat → Nat → V, (∀ i < u.length - 1, ∀ s, 0 < s → s < 1 →
          f (u.getD i 0 + s * (u.getD (i + 1) 0 - u.getD i 0)) = ∑ k ∈ range (p + 1), bern p k s • c i k) →
        ∀ i < u.length - 1, ∀ k ≤ p, coefs.getD (i * (p + 1) + k) 0 = c i k := by
  have hml : (makeInterpolationMask (p + 1) : List ℝ).length = p + 1 := by simp [makeInterpolationMask]
  have hmg : ∀ j ≤ p, (makeInterpolationMask (p + 1) : List ℝ).getD j 0 = ((j : ℝ) + 1) / (p + 2) := by
    intro j hj
    rw [Projector.mask_getD p j hj]
    unfold Projector.node
    push_cast; rw [mul_one_div]; congr 1; ring
  have hnd : (makeInterpolationMask (p + 1) : List ℝ).Nodup := by
    rw [Projector.mask_eq]
    exact List.Nodup.map (fun a b h => Projector.node_inj p a b h) List.nodup_range
  have hpl : (makeInterpolationPoints (makeInterpolationMask (p + 1)) u).length = (u.length - 1) * (p + 1) := by
    rw [points_length, hml]
  have hval : ∀ i < u.length - 1, ∀ j ≤ p, ((makeInterpolationPoints (makeInterpolationMask (p + 1)) u).map f).getD (i * (p + 1) + j) 0 =
      f (u.getD i 0 + ((j : ℝ) + 1) / (p + 2) * (u.getD (i + 1) 0 - u.getD i 0)) := by
    intro i hi j hj
    have g := points_get (makeInterpolationMask (p + 1)) u i j (u.getD i 0) (u.getD (i + 1) 0) (((j : ℝ) + 1) / (p + 2))
      (by rw [List.getD_eq_getElem?_getD, List.getElem?_eq_getElem (by omega)]; rfl)
      (by rw [List.getD_eq_getElem?_getD, List.getElem?_eq_getElem (by omega)]; rfl)
      (by rw [← hmg j hj, List.getD_eq_getElem?_getD, List.getElem?_eq_getElem (by omega)]; rfl)
    rw [hml] at g
    rw [List.getD_eq_getElem?_getD, List.getElem?_map, g]; rfl
  obtain ⟨coefs, e1, e2, e3⟩ := C82_interpolates junk junkM junkV inv hinv p (u.length - 1) hp (makeInterpolationMask (p + 1)) hml hnd
    ((makeInterpolationPoints (makeInterpolationMask (p + 1)) u).map f) (by rw [List.length_map, hpl])
  refine ⟨coefs, e1, e2, ?_, ?_⟩
  · intro i hi j hj
    have := e3 i hi j hj
    rw [hval i hi j hj] at this
    rw [← this]
    exact sum_congr rfl fun k _ => by rw [hmg j hj]
  · intro c hc i hi k hk
    have hget : ∀ a < u.length - 1, ∀ b ≤ p, ((List.range ((u.length - 1) * (p + 1))).map fun m => c (m / (p + 1)) (m % (p + 1))).getD (a * (p + 1) + b) 0 =
        c a b := by
      intro a ha b hb
      have hle : (a + 1) * (p + 1) ≤ (u.length - 1) * (p + 1) := Nat.mul_le_mul_right _ ha
      rw [Nat.succ_mul] at hle
      obtain ⟨d1, d2⟩ := divmod_pair (m := p + 1) (a := a) (b := b) (by omega)
      rw [List.getD_eq_getElem?_getD, List.getElem?_map, List.getElem?_range (by omega), Option.map_some, Option.getD_some, d1, d2]
    have r := C82_reproduces junk junkM junkV inv hinv p (u.length - 1) hp (makeInterpolationMask (p + 1)) hml hnd
      ((makeInterpolationPoints (makeInterpolationMask (p + 1)) u).map f) (by rw [List.length_map, hpl])
      ((List.range ((u.length - 1) * (p + 1))).map fun m => c (m / (p + 1)) (m % (p + 1))) (by simp) (by
        intro a ha b hb
        have hp2 : (0 : ℝ) < (p : ℝ) + 2 := by positivity
        have hb' : (b : ℝ) ≤ p := by exact_mod_cast hb
        rw [hval a ha b hb, hc a ha (((b : ℝ) + 1) / (p + 2)) (by positivity) (by rw [div_lt_one hp2]; linarith)]
        exact sum_congr rfl fun m hm => by rw [hmg b hb, hget a ha m (by have := mem_range.1 hm; omega)])
    rw [e1] at r
    have r := Option.some.inj r
    rw [r, hget i hi k hk]

/-- C82 does not hold beyond degree 20: the stack buffer for the basis values has 21 entries, and the code reads past it. -/
theorem C82_degree_violated (junk : Nat → ℝ) (junkM : Nat → Nat → ℝ) (junkV : Nat → V) (inv) (incr : Nat) (mask : List ℝ) (hm : 21 < mask.length)
    (values : List V) (buf : Nat → V) : getCoefficientsTo junk junkM junkV inv incr mask values buf = none := by
  obtain ⟨n, hn⟩ : ∃ n, mask.length = n + 22 := ⟨mask.length - 22, by omega⟩
  have hdeg : (((mask.length : Int) - 1) + 1).toNat = n + 22 := by omega
  have hx : mask[0]? = some (mask.getD 0 0) := by
    rw [List.getD_eq_getElem?_getD, List.getElem?_eq_getElem (by omega)]; rfl
  have row : ∀ (k : Nat) (val : Nat → ℝ) (m0 : Nat → Nat → ℝ),
      forOpt (k + 22) (fun m i => if i < MaxP + 1 then some (upd2 m 0 i (val i)) else none) m0 = none := by
    intro k val m0
    induction k with
    | zero =>
      rw [show 0 + 22 = 21 + 1 from rfl, forOpt_succ]
      cases forOpt 21 (fun m i => if i < MaxP + 1 then some (upd2 m 0 i (val i)) else none) m0 <;> simp [MaxP]
    | succ k ih =>
      rw [show k + 1 + 22 = (k + 22) + 1 by omega, forOpt_succ, ih]; rfl
  have rows : ∀ k, forOpt (k + 1) (fun (st : (Nat → Nat → ℝ) × (Nat → ℝ)) j => do
      let x ← mask[j]?
      let m ← forOpt (n + 22) (fun m i => if i < MaxP + 1 then some (upd2 m j i (handlerEvalBasis ((mask.length : Int) - 1) st.2 x i)) else none) st.1
      some (m, handlerEvalBasis ((mask.length : Int) - 1) st.2 x)) (junkM, junk) = none := by
    intro k
    induction k with
    | zero =>
      rw [forOpt_succ, forOpt_zero, Option.bind_some, hx]
      simp only [Option.bind_eq_bind, Option.bind_some]
      rw [row n]; rfl
    | succ k ih => rw [forOpt_succ, ih]; rfl
  unfold getCoefficientsTo getInterpolationMatrix
  simp only [hdeg]
  have := rows (n + 21)
  simp only [Option.bind_eq_bind] at this ⊢
  rw [this]; rfl

/-- Three points, degree 2, two increments. -/
example : ((makeInterpolationMask 3 : List ℝ).Nodup ∧ (makeInterpolationMask 3 : List ℝ).length = 2 + 1 ∧ 2 * (2 + 1) ≤ ([1, 4, 9, 5, 5, 5] : List ℝ).length) := by
  refine ⟨?_, by simp [makeInterpolationMask], by simp⟩
  rw [Projector.mask_eq 2]
  exact List.Nodup.map (fun a b h => Projector.node_inj 2 a b h) List.nodup_range

end Bembel.Props
