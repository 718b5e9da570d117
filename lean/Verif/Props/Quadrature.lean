import Mathlib.Analysis.SpecialFunctions.Integrals.Basic
import Mathlib.Analysis.Matrix.Spectrum
import Mathlib.MeasureTheory.Integral.IntervalIntegral.IntegrationByParts
import Verif.Lemmas.Golub
import Verif.Lemmas.H2Transform
/-! # C46, C47: quadrature rules -/

namespace Bembel
namespace Props
open H2 Finset

/-! ## C46 -/

/-- C46: the object returned by `GaussSquare<Order>[i]` resp. `GaussLegendre<Order>[i]` is the rule with `i + 1` points (per
direction) for every `i ≤ Order`. -/
theorem C46_select {K : Type} [Mul K] (rule : Nat → Quad1 K) (order i : Nat) (h : i ≤ order) :
    quadratureVector rule order i = rule (i + 1) ∧
    tensorProductQuadratureVector rule order i = tensorRule (rule (i + 1)) := by
  induction order with
  | zero =>
    obtain rfl : i = 0 := by omega
    exact ⟨rfl, rfl⟩
  | succ o ih =>
    by_cases e : i = o + 1
    · subst e; simp [quadratureVector, tensorProductQuadratureVector]
    · simp only [quadratureVector, tensorProductQuadratureVector, if_neg e]
      exact ih (by omega)

/-- C46: an index beyond the template argument is not detected, the one point rule is returned. -/
theorem C46_out_of_range {K : Type} [Mul K] (rule : Nat → Quad1 K) (order i : Nat) (h : order < i) :
    quadratureVector rule order i = rule 1 ∧ tensorProductQuadratureVector rule order i = tensorRule (rule 1) := by
  induction order with
  | zero => exact ⟨rfl, rfl⟩
  | succ o ih =>
    simp only [quadratureVector, tensorProductQuadratureVector, if_neg (show ¬i = o + 1 by omega)]
    exact ih (by omega)

/-- C46: a sum over the tensor product rule is the double sum over the one-dimensional rule, with the product of the weights
and all pairs of nodes. -/
theorem C46_sum {K V : Type} [CommRing K] [AddCommMonoid V] (q : Quad1 K) (G : K → K × K → V) :
    ∑ k ∈ range (tensorRule q).size, G ((tensorRule q).w k) ((tensorRule q).xi k) =
      ∑ a ∈ range q.size, ∑ b ∈ range q.size, G (q.w a * q.w b) (q.xi a, q.xi b) := by
  show ∑ k ∈ range (q.size * q.size), _ = _
  have : ∀ (m n : Nat) (g : Nat → Nat → V), ∑ k ∈ range (m * n), g (k / n) (k % n) =
      ∑ a ∈ range m, ∑ b ∈ range n, g a b := by
    intro m n g
    induction m with
    | zero => simp
    | succ m ih =>
      rw [Nat.succ_mul, sum_range_add, ih, sum_range_succ]
      congr 1
      refine sum_congr rfl fun b hb => ?_
      have hb := mem_range.1 hb
      have h1 : (m * n + b) / n = m := by
        rw [Nat.mul_comm, Nat.mul_add_div (by omega), Nat.div_eq_of_lt hb, Nat.add_zero]
      have h2 : (m * n + b) % n = b := by
        rw [Nat.mul_comm, Nat.mul_add_mod, Nat.mod_eq_of_lt hb]
      rw [h1, h2]
  exact this q.size q.size (fun a b => G (q.w a * q.w b) (q.xi a, q.xi b))

/-- C46: the rule with `n` points per direction has `n²` points; they are in the (open) unit square if the nodes of the
one-dimensional rule are in the (open) unit interval; the quadrature of a product is the product of the quadratures. -/
theorem C46_tensor (q : Quad1 ℝ) :
    (tensorRule q).size = q.size ^ 2 ∧
    (∀ s : Set ℝ, (∀ a < q.size, q.xi a ∈ s) → ∀ k < (tensorRule q).size,
      ((tensorRule q).xi k).1 ∈ s ∧ ((tensorRule q).xi k).2 ∈ s) ∧
    (∀ f g : ℝ → ℝ, ∑ k ∈ range (tensorRule q).size, (tensorRule q).w k *
        (f ((tensorRule q).xi k).1 * g ((tensorRule q).xi k).2) =
      (∑ a ∈ range q.size, q.w a * f (q.xi a)) * (∑ b ∈ range q.size, q.w b * g (q.xi b))) := by
  refine ⟨(sq _).symm, ?_, ?_⟩
  · intro s hs k hk
    have hk : k < q.size * q.size := hk
    have hp : 0 < q.size := Nat.pos_of_ne_zero fun h => by simp [h] at hk
    exact ⟨hs _ (Nat.div_lt_of_lt_mul hk), hs _ (Nat.mod_lt _ hp)⟩
  · intro f g
    have := C46_sum q (fun w x => w * (f x.1 * g x.2))
    rw [this, sum_mul_sum]
    exact sum_congr rfl fun a _ => sum_congr rfl fun b _ => by ring

/-- A function that is a polynomial of degree at most `D`. -/
def IsPoly (D : Nat) (f : ℝ → ℝ) : Prop := ∃ p : Polynomial ℝ, p.natDegree ≤ D ∧ ∀ x, f x = p.eval x

theorem IsPoly.sum {D : Nat} {ι : Type} (s : Finset ι) (c : ι → ℝ) (f : ι → ℝ → ℝ) (h : ∀ i ∈ s, IsPoly D (f i)) :
    IsPoly D (fun x => ∑ i ∈ s, c i * f i x) := by
  classical
  induction s using Finset.induction_on with
  | empty => exact ⟨0, by simp, by simp⟩
  | insert a s ha ih =>
    obtain ⟨p, hp, hp'⟩ := ih fun i hi => h i (mem_insert_of_mem hi)
    obtain ⟨r, hr, hr'⟩ := h a (mem_insert_self _ _)
    refine ⟨Polynomial.C (c a) * r + p, ?_, ?_⟩
    · exact (Polynomial.natDegree_add_le _ _).trans (max_le ((Polynomial.natDegree_C_mul_le _ _).trans hr) hp)
    · intro x; simp only [sum_insert ha]; simp [hr', hp']

theorem ExactTo.apply {Q : Quad1 ℝ} {D : Nat} (h : ExactTo Q D) {f : ℝ → ℝ} (hf : IsPoly D f) :
    ∑ q ∈ range Q.size, Q.w q * f (Q.xi q) = ∫ x in (0:ℝ)..1, f x := by
  obtain ⟨p, hp, hp'⟩ := hf
  simp only [hp']
  exact h p hp

/-- C46: polynomial exactness carries over in each variable: a function that is a polynomial of degree at most `D` in each
variable separately is integrated exactly. -/
theorem C46_exact (q : Quad1 ℝ) (D : Nat) (h : ExactTo q D) (f : ℝ → ℝ → ℝ) (hx : ∀ y, IsPoly D (fun x => f x y))
    (hy : ∀ x, IsPoly D (f x)) :
    ∑ k ∈ range (tensorRule q).size, (tensorRule q).w k * f ((tensorRule q).xi k).1 ((tensorRule q).xi k).2 =
      ∫ x in (0:ℝ)..1, ∫ y in (0:ℝ)..1, f x y := by
  have := C46_sum q (fun w x => w * f x.1 x.2)
  rw [this]
  have e : ∀ x, ∫ y in (0:ℝ)..1, f x y = ∑ b ∈ range q.size, q.w b * f x (q.xi b) := fun x => (h.apply (hy x)).symm
  simp only [e]
  rw [← h.apply (IsPoly.sum (range q.size) q.w (fun b x => f x (q.xi b)) fun b _ => hx _)]
  refine sum_congr rfl fun a _ => ?_
  rw [mul_sum]
  exact sum_congr rfl fun b _ => by ring

/-- C46: the weights sum to one. -/
theorem C46_weights (q : Quad1 ℝ) (h : ExactTo q 0) : ∑ k ∈ range (tensorRule q).size, (tensorRule q).w k = 1 := by
  have := C46_exact q 0 h (fun _ _ => 1) (fun _ => ⟨1, by simp, by simp⟩) (fun _ => ⟨1, by simp, by simp⟩)
  simpa using this

/-! ## C47 -/

/-- Decidable check of a table. -/
def tableCheck (n : Nat) (l : List Nat × List Nat) : Bool :=
  l.1.length == n && l.2.length == n &&
  (List.range n).all (fun i => 0 < l.1.getD i 0 && l.1.getD i 0 < GaussTables.den && 0 < l.2.getD i 0) &&
  (List.range (n - 1)).all (fun i => l.1.getD i 0 < l.1.getD (i + 1) 0) &&
  (List.range n).all (fun i => l.2.getD i 0 == l.2.getD (n - 1 - i) 0 &&
    Int.natAbs ((l.1.getD i 0 : Int) + l.1.getD (n - 1 - i) 0 - GaussTables.den) * 10 ^ 40 ≤ GaussTables.den) &&
  (List.range (2 * n)).all (fun k => Int.natAbs (((k + 1 : Nat) : Int) * ((List.range n).map fun i =>
      ((l.2.getD i 0 * l.1.getD i 0 ^ k : Nat) : Int)).sum - (GaussTables.den ^ (k + 1) : Nat)) * 10 ^ 39 ≤
    (k + 1) * GaussTables.den ^ (k + 1))

theorem tables_ok : (List.range 20).all (fun n => match GaussTables.table (n + 1) with
    | some l => tableCheck (n + 1) l | none => false) = true := by
  decide +kernel

theorem table_check (n : Nat) (h1 : 1 ≤ n) (h2 : n ≤ 20) : ∃ l, GaussTables.table n = some l ∧ tableCheck n l = true := by
  have := List.all_eq_true.1 tables_ok (n - 1) (List.mem_range.2 (by omega))
  rw [show n - 1 + 1 = n by omega] at this
  split at this
  · exact ⟨_, by assumption, this⟩
  · exact absurd this (by simp)

theorem natAbs_le_real {z : Int} {a b c : Nat} (h : z.natAbs * a ≤ b * c) : |(z : ℝ)| * a ≤ b * c := by
  have : ((z.natAbs : ℕ) : ℝ) = |(z : ℝ)| := by rw [Nat.cast_natAbs, Int.cast_abs]
  rw [← this]
  exact_mod_cast h

theorem sum_map_range_real (n : Nat) (f : Nat → Int) : ((((List.range n).map f).sum : Int) : ℝ) = ∑ i ∈ range n, (f i : ℝ) := by
  rw [← Int.cast_sum]
  congr 1

/-- C47: every tabulated rule `GaussLegendreRule<n>`, `n = 1, …, 20` (the printed decimals taken as exact): `n` nodes and `n`
weights, nodes strictly increasing inside the open unit interval, positive weights, weights exactly symmetric, nodes
symmetric up to `1e-40`, and all monomials up to degree `2 n - 1` are integrated with an error of at most `1e-39`. -/
theorem C47_tables (es : EigenSolver) (n : Nat) (h1 : 1 ≤ n) (h2 : n ≤ 20) :
    let q := gaussLegendreRule es n
    q.size = n ∧
    (∀ i < n, 0 < q.xi i ∧ q.xi i < 1 ∧ 0 < q.w i) ∧
    (∀ i j, i < j → j < n → q.xi i < q.xi j) ∧
    (∀ i < n, q.w (n - 1 - i) = q.w i ∧ |q.xi (n - 1 - i) - (1 - q.xi i)| ≤ 1 / 10 ^ 40) ∧
    (∀ k < 2 * n, |∑ i ∈ range n, q.w i * q.xi i ^ k - ∫ x in (0:ℝ)..1, x ^ k| ≤ 1 / 10 ^ 39) := by
  obtain ⟨l, hl, hc⟩ := table_check n h1 h2
  have hq : gaussLegendreRule es n = tabulated l := by simp only [gaussLegendreRule, hl]
  simp only [tableCheck, Bool.and_eq_true, List.all_eq_true, List.mem_range, beq_iff_eq, decide_eq_true_eq] at hc
  obtain ⟨⟨⟨⟨⟨c1, c2⟩, c3⟩, c4⟩, c5⟩, c6⟩ := hc
  have hd : (0 : ℝ) < (GaussTables.den : ℝ) := by norm_num [GaussTables.den]
  rw [hq]
  simp only [tabulated]
  refine ⟨c1, ?_, ?_, ?_, ?_⟩
  · intro i hi
    obtain ⟨⟨a, b⟩, c⟩ := c3 i hi
    refine ⟨div_pos (by exact_mod_cast a) hd, ?_, div_pos (by exact_mod_cast c) hd⟩
    rw [div_lt_one hd]
    exact_mod_cast b
  · intro i j hij hj
    refine div_lt_div_of_pos_right ?_ hd
    have : ∀ d, i + d + 1 < n → l.1.getD i 0 < l.1.getD (i + d + 1) 0 := by
      intro d
      induction d with
      | zero => intro h; exact c4 i (by omega)
      | succ d ih => intro h; exact (ih (by omega)).trans (c4 _ (by omega))
    have := this (j - i - 1) (by omega)
    rw [show i + (j - i - 1) + 1 = j by omega] at this
    exact_mod_cast this
  · intro i hi
    obtain ⟨a, b⟩ := c5 i hi
    rw [a]
    refine ⟨rfl, ?_⟩
    have b' := natAbs_le_real (b := GaussTables.den) (c := 1) (by simpa using b)
    push_cast at b'
    have e : (l.1.getD (n - 1 - i) 0 : ℝ) / GaussTables.den - (1 - (l.1.getD i 0 : ℝ) / GaussTables.den) =
        ((l.1.getD i 0 : ℝ) + l.1.getD (n - 1 - i) 0 - GaussTables.den) / GaussTables.den := by
      field_simp; ring
    rw [e, abs_div, abs_of_pos hd, div_le_iff₀ hd]
    rw [← le_div_iff₀ (by positivity)] at b'
    refine b'.trans (le_of_eq (by ring))
  · intro k hk
    have b := natAbs_le_real (c6 k hk)
    rw [Int.cast_sub, Int.cast_mul, sum_map_range_real] at b
    push_cast at b
    rw [integral_pow]
    set N : ℝ := (GaussTables.den : ℝ) with hN
    have hk1 : (0:ℝ) < (k : ℝ) + 1 := by positivity
    have e : (∑ i ∈ range n, (l.2.getD i 0 : ℝ) / N * ((l.1.getD i 0 : ℝ) / N) ^ k) - (1 ^ (k + 1) - 0 ^ (k + 1)) / ((k : ℝ) + 1) =
        (((k : ℝ) + 1) * (∑ i ∈ range n, (l.2.getD i 0 : ℝ) * (l.1.getD i 0 : ℝ) ^ k) - N ^ (k + 1)) /
          (((k : ℝ) + 1) * N ^ (k + 1)) := by
      have : ∀ i, (l.2.getD i 0 : ℝ) / N * ((l.1.getD i 0 : ℝ) / N) ^ k = ((l.2.getD i 0 : ℝ) * (l.1.getD i 0 : ℝ) ^ k) / N ^ (k + 1) := by
        intro i; rw [div_pow, pow_succ]; field_simp
      simp only [this, ← sum_div]
      rw [zero_pow (by omega), one_pow, sub_zero]
      field_simp
    rw [e, abs_div, abs_of_pos (a := ((k : ℝ) + 1) * N ^ (k + 1)) (by positivity), div_le_iff₀ (by positivity)]
    rw [← le_div_iff₀ (by positivity)] at b
    refine le_trans b (le_of_eq ?_)
    ring

/-- C47: accuracy of the tabulated rules for every polynomial of degree up to `2 n - 1`: error at most `1e-39` times the sum of
the absolute values of the coefficients. -/
theorem C47_polynomials (es : EigenSolver) (n : Nat) (h1 : 1 ≤ n) (h2 : n ≤ 20) (f : Polynomial ℝ) (hf : f.natDegree < 2 * n) :
    let q := gaussLegendreRule es n
    |∑ i ∈ range q.size, q.w i * f.eval (q.xi i) - ∫ x in (0:ℝ)..1, f.eval x| ≤
      1 / 10 ^ 39 * ∑ k ∈ range (2 * n), |f.coeff k| := by
  intro q
  obtain ⟨hs, -, -, -, hm⟩ := C47_tables es n h1 h2
  have hs : q.size = n := hs
  have e1 : ∑ i ∈ range q.size, q.w i * f.eval (q.xi i) = ∑ k ∈ range (2 * n), f.coeff k * ∑ i ∈ range n, q.w i * q.xi i ^ k := by
    rw [hs, sum_congr rfl fun i _ => by rw [Polynomial.eval_eq_sum_range' hf (q.xi i), mul_sum], sum_comm]
    refine sum_congr rfl fun k _ => ?_
    rw [mul_sum]
    exact sum_congr rfl fun i _ => by ring
  have e2 : ∫ x in (0:ℝ)..1, f.eval x = ∑ k ∈ range (2 * n), f.coeff k * ∫ x in (0:ℝ)..1, x ^ k := by
    rw [intervalIntegral.integral_congr (g := fun x => ∑ k ∈ range (2 * n), f.coeff k * x ^ k)
      fun x _ => Polynomial.eval_eq_sum_range' hf x, intervalIntegral.integral_finsetSum]
    · exact sum_congr rfl fun k _ => intervalIntegral.integral_const_mul _ _
    · intro k _
      exact (by fun_prop : Continuous fun x : ℝ => f.coeff k * x ^ k).intervalIntegrable _ _
  rw [e1, e2, ← sum_sub_distrib, mul_sum]
  refine (abs_sum_le_sum_abs _ _).trans (sum_le_sum fun k hk => ?_)
  rw [← mul_sub, abs_mul, mul_comm]
  exact mul_le_mul_of_nonneg_right (hm k (mem_range.1 hk)) (abs_nonneg _)

theorem L_shift (f : Polynomial ℝ) :
    Legendre.L (f.comp (Polynomial.C (1 / 2) * (Polynomial.X + 1))) = ∫ x in (0:ℝ)..1, f.eval x := by
  have h := intervalIntegral.integral_comp_mul_add (a := -1) (b := 1) (fun x => f.eval x) (c := 1 / 2) (by norm_num) (1 / 2)
  have e : ∀ x : ℝ, (f.comp (Polynomial.C (1 / 2) * (Polynomial.X + 1))).eval x = f.eval (1 / 2 * x + 1 / 2) := by
    intro x; rw [Polynomial.eval_comp]; simp; ring_nf
  simp only [Legendre.L, e]
  rw [h]
  norm_num
  ring

/-- C47: the primary template (used for more than 20 points) gives, for an exact eigenvalue solver, the Gauss rule: it is
exact for all polynomials of degree at most `2 n - 1`. -/
theorem C47_generic (es : EigenSolver) (n : Nat) (hn : 1 ≤ n) (hes : EigenCorrect n (gaussMatrix n) (es n (gaussMatrix n))) :
    ExactTo (gaussLegendreGeneric es n) (2 * n - 1) := by
  intro f hf
  have hdeg : (f.comp (Polynomial.C (1 / 2) * (Polynomial.X + 1))).natDegree ≤ 2 * n - 1 := by
    refine Polynomial.natDegree_comp_le.trans ?_
    have : (Polynomial.C (1 / 2 : ℝ) * (Polynomial.X + 1)).natDegree ≤ 1 := by
      refine (Polynomial.natDegree_C_mul_le _ _).trans ?_
      exact (Polynomial.natDegree_add_le _ _).trans (by simp)
    calc f.natDegree * _ ≤ f.natDegree * 1 := Nat.mul_le_mul_left _ this
      _ ≤ _ := by omega
  have h := Legendre.eig_exact hes _ hdeg (by omega)
  rw [L_shift] at h
  rw [← h]
  refine sum_congr rfl fun k _ => ?_
  simp only [gaussLegendreGeneric, Polynomial.eval_comp]
  simp only [Polynomial.eval_mul, Polynomial.eval_C, Polynomial.eval_add, Polynomial.eval_X, Polynomial.eval_one]
  norm_num

theorem exact_node (q : Quad1 ℝ) (n : Nat) (hs : q.size = n) (hex : ExactTo q (2 * n - 1)) (hw : ∀ i < n, 0 ≤ q.w i)
    (k : Nat) (hk : k < n) (g : Polynomial ℝ) (hg1 : g.natDegree ≤ 1) (hg : ∀ x, 0 < x → x < 1 → 0 < g.eval x) :
    0 < g.eval (q.xi k) := by
  classical
  let S : Finset ℝ := ((range n).image q.xi).erase (q.xi k)
  let p : Polynomial ℝ := ∏ y ∈ S, (Polynomial.X - Polynomial.C y) ^ 2
  have hcard : S.card + 1 ≤ n := by
    have h1 : S.card = ((range n).image q.xi).card - 1 := card_erase_of_mem (mem_image_of_mem _ (mem_range.2 hk))
    have h2 : ((range n).image q.xi).card ≤ n := card_image_le.trans (by simp)
    have h3 : 0 < ((range n).image q.xi).card := card_pos.2 ⟨_, mem_image_of_mem _ (mem_range.2 hk)⟩
    omega
  have hp : p.natDegree ≤ 2 * S.card := by
    refine (Polynomial.natDegree_prod_le _ _).trans ?_
    refine (sum_le_card_nsmul _ _ 2 fun y _ => ?_).trans (by rw [smul_eq_mul, mul_comm])
    exact (Polynomial.natDegree_pow_le).trans (by simp)
  have hpe : ∀ x, p.eval x = ∏ y ∈ S, (x - y) ^ 2 := by
    intro x; simp [p, Polynomial.eval_prod]
  have hpos : ∀ x, 0 ≤ p.eval x := fun x => by rw [hpe]; exact prod_nonneg fun y _ => sq_nonneg _
  have h := hex (g * p) (Polynomial.natDegree_mul_le.trans (by omega))
  have hint : 0 < ∫ x in (0:ℝ)..1, (g * p).eval x := by
    refine intervalIntegral.integral_pos (by norm_num) (g * p).continuousOn ?_ ?_
    · intro x hx
      have : x ≤ 1 := hx.2
      rw [Polynomial.eval_mul]
      refine mul_nonneg ?_ (hpos x)
      have hc : Filter.Tendsto (fun y => g.eval y) (nhdsWithin x (Set.Iio x)) (nhds (g.eval x)) :=
        g.continuous.continuousWithinAt
      refine ge_of_tendsto hc ?_
      have hlt : (0:ℝ) < x := hx.1
      filter_upwards [Ioo_mem_nhdsLT hlt] with y hy
      exact (hg y hy.1 (hy.2.trans_le this)).le
    · obtain ⟨x, hx, hxS⟩ := (Set.Ioo_infinite (a := (0:ℝ)) (b := 1) (by norm_num)).exists_notMem_finset S
      refine ⟨x, Set.Ioo_subset_Icc_self hx, ?_⟩
      rw [Polynomial.eval_mul]
      refine mul_pos (hg x hx.1 hx.2) ?_
      rw [hpe]
      refine prod_pos fun y hy => ?_
      have : x - y ≠ 0 := fun h => hxS (by rw [sub_eq_zero.1 h]; exact hy)
      positivity
  rw [← h, hs] at hint
  by_contra hneg
  refine absurd hint (not_lt.2 (sum_nonpos fun i hi => ?_))
  have hi' := mem_range.1 hi
  rw [Polynomial.eval_mul]
  by_cases e : q.xi i = q.xi k
  · rw [e]
    exact mul_nonpos_of_nonneg_of_nonpos (hw i hi') (mul_nonpos_of_nonpos_of_nonneg (not_lt.1 hneg) (hpos _))
  · have : p.eval (q.xi i) = 0 := by
      rw [hpe]
      exact prod_eq_zero (i := q.xi i) (mem_erase.2 ⟨e, mem_image_of_mem _ hi⟩) (by simp)
    rw [this]; simp

/-- C47: and its nodes are inside the open unit interval, its weights are not negative. -/
theorem C47_generic_nodes (es : EigenSolver) (n : Nat) (hn : 1 ≤ n)
    (hes : EigenCorrect n (gaussMatrix n) (es n (gaussMatrix n))) (i : Nat) (hi : i < n) :
    0 < (gaussLegendreGeneric es n).xi i ∧ (gaussLegendreGeneric es n).xi i < 1 ∧ 0 ≤ (gaussLegendreGeneric es n).w i := by
  have hw : ∀ i < n, 0 ≤ (gaussLegendreGeneric es n).w i := fun i _ => mul_self_nonneg _
  have hex := C47_generic es n hn hes
  refine ⟨?_, ?_, hw i hi⟩
  · simpa using exact_node _ n rfl hex hw i hi Polynomial.X (by simp) (fun x h _ => by simpa using h)
  · have := exact_node _ n rfl hex hw i hi (1 - Polynomial.X)
      ((Polynomial.natDegree_sub_le _ _).trans (by simp)) (by simp)
    simpa using this

/-- C47: all rules `GaussSquare` or `GaussLegendre` can return, for an exact eigenvalue solver: rule number `i` has `i + 1`
points, all in the open unit interval, and weights that are not negative. -/
theorem C47_all (es : EigenSolver) (hes : SolverCorrect es) (order i : Nat) (h : i ≤ order) :
    (gaussLegendre es order i).size = i + 1 ∧
    ∀ k < i + 1, 0 < (gaussLegendre es order i).xi k ∧ (gaussLegendre es order i).xi k < 1 ∧
      0 ≤ (gaussLegendre es order i).w k := by
  rw [gaussLegendre, (C46_select _ order i h).1]
  by_cases hi : i + 1 ≤ 20
  · obtain ⟨h1, h2, -⟩ := C47_tables es (i + 1) (by omega) hi
    exact ⟨h1, fun k hk => ⟨(h2 k hk).1, (h2 k hk).2.1, (h2 k hk).2.2.le⟩⟩
  · have e : GaussTables.table (i + 1) = none := by
      unfold GaussTables.table
      split <;> first | omega | rfl
    have : gaussLegendreRule es (i + 1) = gaussLegendreGeneric es (i + 1) := by simp only [gaussLegendreRule, e]
    rw [this]
    exact ⟨rfl, fun k hk => C47_generic_nodes es (i + 1) (by omega) (hes _ _) k hk⟩

/-- Non-vacuity: exact eigenvalue solvers exist (spectral theorem). -/
theorem solver_exists : ∃ es : EigenSolver, SolverCorrect es := by
  have : ∀ (n : Nat) (A : Nat → Nat → ℝ), ∃ r, EigenCorrect n A r := by
    intro n A
    let S : Matrix (Fin n) (Fin n) ℝ := fun i j => if (j : Nat) ≤ i then A i j else A j i
    have hS : S.IsHermitian := by
      ext i j
      rw [Matrix.conjTranspose_apply, star_trivial]
      show (if (i : Nat) ≤ j then A j i else A i j) = if (j : Nat) ≤ i then A i j else A j i
      split_ifs with h1 h2 h2
      · have : i = j := Fin.ext (le_antisymm h1 h2)
        rw [this]
      · rfl
      · rfl
      · omega
    refine ⟨⟨fun k => if h : k < n then hS.eigenvalues ⟨k, h⟩ else 0,
      fun j k => if h : j < n ∧ k < n then hS.eigenvectorBasis ⟨k, h.2⟩ ⟨j, h.1⟩ else 0⟩, ?_, ?_⟩
    · intro i hi k hk
      have h := hS.mulVec_eigenvectorBasis ⟨k, hk⟩
      have h := congrFun h ⟨i, hi⟩
      rw [← Fin.sum_univ_eq_sum_range (fun j => (if j ≤ i then A i j else A j i) *
        (if h : j < n ∧ k < n then hS.eigenvectorBasis ⟨k, h.2⟩ ⟨j, h.1⟩ else 0))]
      simp only [Matrix.mulVec, dotProduct, Pi.smul_apply, smul_eq_mul] at h
      simp only [hk, hi, and_self, dite_true, Fin.is_lt]
      exact h
    · intro k hk l hl
      have h := orthonormal_iff_ite.1 hS.eigenvectorBasis.orthonormal ⟨l, hl⟩ ⟨k, hk⟩
      rw [← Fin.sum_univ_eq_sum_range (fun j => (if h : j < n ∧ k < n then hS.eigenvectorBasis ⟨k, h.2⟩ ⟨j, h.1⟩ else 0) *
        (if h : j < n ∧ l < n then hS.eigenvectorBasis ⟨l, h.2⟩ ⟨j, h.1⟩ else 0))]
      simp only [hk, hl, and_self, dite_true, Fin.is_lt]
      simp only [PiLp.inner_apply, RCLike.inner_apply, conj_trivial, Fin.mk.injEq] at h
      rw [h]
      simp only [eq_comm]
  choose es hes using this
  exact ⟨es, hes⟩

/-- Non-vacuity of C47 and of the hypotheses of C42: with an exact solver, rule number 30 is exact up to degree 61. -/
example : ∃ es : EigenSolver, SolverCorrect es ∧ ExactTo (gaussLegendre es 50 30) 61 := by
  obtain ⟨es, hes⟩ := solver_exists
  refine ⟨es, hes, ?_⟩
  rw [gaussLegendre, (C46_select _ 50 30 (by norm_num)).1]
  exact C47_generic es 31 (by norm_num) (hes _ _)

end Props
end Bembel
