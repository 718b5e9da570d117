import Verif.Lemmas.Knots
import Mathlib.Analysis.Convex.Basic
import Mathlib.Tactic.Positivity
import Mathlib.Tactic.NormNum
/-!
# Property theorems C06–C09: knot vectors and De Boor evaluation
-/

set_option linter.unusedSectionVars false

open Finset

namespace Bembel.Props

open Bembel.Spl

variable {K : Type} [Field K] [LinearOrder K] [IsStrictOrderedRing K]

/-! ## C06 -/

/-- C06: the Bezier knot vector is `p` zeros followed by `p` ones. -/
theorem C06_bezier (p : Nat) :
    (makeBezierKnotVector p : List K) = List.replicate p 0 ++ List.replicate p 1 :=
  makeBezier_eq p

theorem C06_length (p m r : Nat) :
    (makeUniformKnotVector p m r : List K).length = 2 * p + m * r := by
  rw [makeUniform_eq]
  simp [List.length_flatMap]
  omega

/-- C06: the uniform knot vector is sorted. -/
theorem C06_sorted (p m r : Nat) :
    (makeUniformKnotVector p m r : List K).Pairwise (· ≤ ·) := by
  rw [makeUniform_eq]
  have hpos : (0 : K) < (m : K) + 1 := by positivity
  have hmem : ∀ k ∈ ((List.range m).flatMap fun (i : Nat) =>
      List.replicate r (((i : K) + 1) * (1 / ((m : K) + 1)))), (0 : K) ≤ k ∧ k ≤ 1 := by
    intro k hk
    simp only [List.mem_flatMap, List.mem_range, List.mem_replicate] at hk
    obtain ⟨i, hi, -, rfl⟩ := hk
    have : (i : K) + 1 ≤ (m : K) := by exact_mod_cast hi
    constructor
    · positivity
    · rw [mul_one_div, div_le_one hpos]; linarith
  rw [List.pairwise_append, List.pairwise_append]
  refine ⟨⟨List.pairwise_replicate.2 (Or.inr le_rfl), ?_, ?_⟩,
    List.pairwise_replicate.2 (Or.inr le_rfl), ?_⟩
  · rw [List.pairwise_flatMap]
    refine ⟨fun i _ => List.pairwise_replicate.2 (Or.inr le_rfl), ?_⟩
    refine List.Pairwise.imp ?_ List.pairwise_lt_range
    intro a b hab x hx y hy
    obtain ⟨-, rfl⟩ := List.mem_replicate.1 hx
    obtain ⟨-, rfl⟩ := List.mem_replicate.1 hy
    have : (a : K) ≤ b := by exact_mod_cast hab.le
    gcongr
  · intro a ha b hb
    obtain ⟨-, rfl⟩ := List.mem_replicate.1 ha
    exact (hmem b hb).1
  · intro a ha b hb
    obtain ⟨-, rfl⟩ := List.mem_replicate.1 hb
    rcases List.mem_append.1 ha with h | h
    · obtain ⟨-, rfl⟩ := List.mem_replicate.1 h; exact zero_le_one
    · exact (hmem a h).2

/-- C06: every knot lies in `[0,1]`. -/
theorem C06_range (p m r : Nat) (k : K) (hk : k ∈ (makeUniformKnotVector p m r : List K)) :
    0 ≤ k ∧ k ≤ 1 := by
  rw [makeUniform_eq] at hk
  have hpos : (0 : K) < (m : K) + 1 := by positivity
  simp only [List.mem_append, List.mem_flatMap, List.mem_range, List.mem_replicate] at hk
  rcases hk with (⟨-, rfl⟩ | ⟨i, hi, -, rfl⟩) | ⟨-, rfl⟩
  · exact ⟨le_rfl, zero_le_one⟩
  · have : (i : K) + 1 ≤ (m : K) := by exact_mod_cast hi
    constructor
    · positivity
    · rw [mul_one_div, div_le_one hpos]; linarith
  · exact ⟨zero_le_one, le_rfl⟩

theorem count_blocks (m r : Nat) (f : Nat → K) (hf : Function.Injective f) (j : Nat) (hj : j < m) :
    (((List.range m).flatMap fun i => List.replicate r (f i))).count (f j) = r := by
  rw [List.count_flatMap]
  have : (List.count (f j) ∘ fun i => List.replicate r (f i)) = fun i => if i = j then r else 0 := by
    funext i
    simp only [Function.comp, List.count_replicate, beq_iff_eq]
    by_cases h : i = j
    · simp [h]
    · have : f i ≠ f j := fun h' => h (hf h')
      simp [h, this]
  rw [this]
  clear this
  induction m with
  | zero => omega
  | succ m ih =>
    rw [List.range_succ, List.map_append, List.sum_append]
    by_cases h : j = m
    · subst h
      have : ((List.range j).map fun i => if i = j then r else 0).sum = 0 := by
        rw [List.sum_eq_zero]
        intro x hx
        simp only [List.mem_map, List.mem_range] at hx
        obtain ⟨i, hi, rfl⟩ := hx
        rw [if_neg (by omega)]
      simp [this]
    · rw [ih (by omega)]
      simp [Ne.symm h]

/-- C06: multiplicities.  `0` and `1` occur `p` times each, the interior break point `j/(m+1)`,
`1 ≤ j ≤ m`, occurs `r` times. -/
theorem C06_multiplicity (p m r : Nat) (j : Nat) (hj : j ≤ m + 1) :
    (makeUniformKnotVector p m r : List K).count ((j : K) / ((m : K) + 1)) =
      if j = 0 ∨ j = m + 1 then p else r := by
  have hpos : (0 : K) < (m : K) + 1 := by positivity
  have hinj : Function.Injective (fun (i : Nat) => ((i : K) + 1) * (1 / ((m : K) + 1))) := by
    intro a b h
    have h' := mul_right_cancel₀ (one_div_ne_zero hpos.ne') h
    exact_mod_cast (add_left_injective (1 : K)) h'
  have key : ∀ x : K, (makeUniformKnotVector p m r : List K).count x =
      (if 0 = x then p else 0) + (((List.range m).flatMap fun (i : Nat) =>
        List.replicate r (((i : K) + 1) * (1 / ((m : K) + 1))))).count x +
        (if 1 = x then p else 0) := by
    intro x
    rw [makeUniform_eq, List.count_append, List.count_append, List.count_replicate,
      List.count_replicate]
    simp only [beq_iff_eq]
  rw [key]
  rcases Nat.eq_zero_or_pos j with rfl | hj0
  · have : ((0 : Nat) : K) / ((m : K) + 1) = 0 := by simp
    rw [this, List.count_eq_zero.2]
    · simp
    · simp only [List.mem_flatMap, List.mem_range, List.mem_replicate, not_exists, not_and]
      intro i _ _ h
      have : (0 : K) < ((i : K) + 1) * (1 / ((m : K) + 1)) := by positivity
      exact this.ne h
  · rcases Nat.eq_or_lt_of_le hj with rfl | hjm
    · have : ((m + 1 : Nat) : K) / ((m : K) + 1) = 1 := by
        push_cast; exact div_self hpos.ne'
      rw [this, List.count_eq_zero.2]
      · simp
      · simp only [List.mem_flatMap, List.mem_range, List.mem_replicate, not_exists, not_and]
        intro i hi _ h
        rw [mul_one_div, eq_comm, div_eq_one_iff_eq hpos.ne'] at h
        have : i + 1 = m + 1 := by exact_mod_cast h
        omega
    · obtain ⟨i, rfl⟩ := Nat.exists_eq_add_of_lt hj0
      have e : ((0 + i + 1 : Nat) : K) / ((m : K) + 1) = ((i : K) + 1) * (1 / ((m : K) + 1)) := by
        rw [mul_one_div]; push_cast; ring
      have h0 : (0 : K) ≠ ((i : K) + 1) * (1 / ((m : K) + 1)) := by
        have : (0 : K) < ((i : K) + 1) * (1 / ((m : K) + 1)) := by positivity
        exact this.ne
      have h1 : (1 : K) ≠ ((i : K) + 1) * (1 / ((m : K) + 1)) := by
        intro h
        rw [mul_one_div, eq_comm, div_eq_one_iff_eq hpos.ne'] at h
        have : i + 1 = m + 1 := by exact_mod_cast h
        omega
      rw [e, if_neg h0, if_neg h1, count_blocks m r _ hinj i (by omega)]
      simp; omega

theorem degreeLoop_skip (kv : List K) (q : Nat) (k : K) (hq : kv[q]? = some k) (hk : k > 1 / 10000000)
    (hz : ∀ i, 0 < i → i < q → kv[i]? = some 0) :
    ∀ fuel i, i < q → q ≤ i + fuel → getPolynomialDegreeLoop kv fuel i = q := by
  intro fuel
  induction fuel with
  | zero => intro i h1 h2; omega
  | succ fuel ih =>
    intro i h1 h2
    rw [getPolynomialDegreeLoop]
    by_cases h : i + 1 = q
    · rw [h, hq]; simp only []; rw [if_pos hk]
    · rw [hz (i + 1) (by omega) (by omega)]
      have : ¬ ((0 : K) > 1 / 10000000) := not_lt.2 (by positivity)
      simp only []
      rw [if_neg this, ih (i + 1) (by omega) (by omega)]

/-- C06: the degree query applied to a generated knot vector returns the requested (order) argument, as
long as the mesh width exceeds the tolerance 1e-7 of the query. -/
theorem C06_degree_query (p m r : Nat) (hp : 1 ≤ p) (hm : m + 1 < 10000000) :
    getPolynomialDegreeFromKnotVector (makeUniformKnotVector p m r : List K) = p := by
  have hpos : (0 : K) < (m : K) + 1 := by positivity
  have hm' : (m : K) + 1 < 10000000 := by exact_mod_cast hm
  have hlen : (makeUniformKnotVector p m r : List K).length = 2 * p + m * r := C06_length p m r
  have hplt : p < (makeUniformKnotVector p m r : List K).length := by rw [hlen]; omega
  have hz : ∀ i, i < p → (makeUniformKnotVector p m r : List K)[i]? = some 0 := by
    intro i hi
    rw [makeUniform_eq, List.append_assoc, List.getElem?_append_left (by simpa using hi)]
    rw [List.getElem?_replicate, if_pos hi]
  have hmem : ∀ k ∈ ((List.range m).flatMap fun (i : Nat) =>
      List.replicate r (((i : K) + 1) * (1 / ((m : K) + 1)))) ++ List.replicate p (1 : K),
      k > 1 / 10000000 := by
    intro k hk
    simp only [List.mem_append, List.mem_flatMap, List.mem_range, List.mem_replicate] at hk
    rcases hk with ⟨i, hi, -, rfl⟩ | ⟨-, rfl⟩
    · have h1 : (1 : K) / 10000000 < 1 / ((m : K) + 1) := by
        apply one_div_lt_one_div_of_lt hpos hm'
      have h2 : (1 : K) / ((m : K) + 1) ≤ ((i : K) + 1) * (1 / ((m : K) + 1)) := by
        have : (0 : K) ≤ 1 / ((m : K) + 1) := by positivity
        nlinarith [Nat.cast_nonneg (α := K) i]
      exact lt_of_lt_of_le h1 h2
    · norm_num
  obtain ⟨k, hk⟩ : ∃ k, (makeUniformKnotVector p m r : List K)[p]? = some k :=
    ⟨_, List.getElem?_eq_getElem hplt⟩
  have hk' : k > 1 / 10000000 := by
    have h := hk
    rw [makeUniform_eq, List.append_assoc, List.getElem?_append_right (by simp)] at h
    exact hmem k (List.mem_of_getElem? h)
  exact degreeLoop_skip _ p k hk hk' (fun i _ hi => hz i hi) _ 0 (by omega) (by omega)

theorem degreeLoop_found (kv : List K) (q : Nat) (hq : 0 < q) :
    ∀ fuel i, getPolynomialDegreeLoop kv fuel i = q → ∃ k, kv[q]? = some k ∧ k > 1 / 10000000 := by
  intro fuel
  induction fuel with
  | zero => intro i h; simp [getPolynomialDegreeLoop] at h; omega
  | succ fuel ih =>
    intro i h
    rw [getPolynomialDegreeLoop] at h
    cases hk : kv[i + 1]? with
    | none => rw [hk] at h; simp only [] at h; omega
    | some k =>
      rw [hk] at h
      simp only [] at h
      by_cases hc : k > 1 / 10000000
      · rw [if_pos hc] at h
        exact ⟨k, h ▸ hk, hc⟩
      · rw [if_neg hc] at h
        exact ih _ h

/-- C06: the restriction on the mesh width in `C06_degree_query` is sharp: with ten million or more spans the query never returns the
degree of a generated knot vector. -/
theorem C06_degree_query_limit (p m r : Nat) (hp : 1 ≤ p) (hr : 1 ≤ r) (hm : 10000000 ≤ m + 1) :
    getPolynomialDegreeFromKnotVector (makeUniformKnotVector p m r : List K) ≠ p := by
  intro h
  obtain ⟨k, hk, hk'⟩ := degreeLoop_found _ p hp _ 0 h
  rw [makeUniform_eq, List.append_assoc, List.getElem?_append_right (by simp), List.length_replicate, Nat.sub_self] at hk
  obtain ⟨m, rfl⟩ : ∃ m', m = m' + 1 := ⟨m - 1, by omega⟩
  obtain ⟨r, rfl⟩ : ∃ r', r = r' + 1 := ⟨r - 1, by omega⟩
  simp only [List.range_succ_eq_map, List.flatMap_cons, List.replicate_succ, List.cons_append, List.getElem?_cons_zero,
    Option.some.injEq] at hk
  have h1 : (10000000 : K) ≤ ((m + 1 : Nat) : K) + 1 := by exact_mod_cast hm
  have h2 : (1 : K) / (((m + 1 : Nat) : K) + 1) ≤ 1 / 10000000 := one_div_le_one_div_of_le (by norm_num) h1
  rw [← hk] at hk'
  simp only [Nat.cast_zero, zero_add, one_mul] at hk'
  exact absurd h2 (not_le.2 hk')

example : (makeUniformKnotVector 2 1 1 : List ℚ) = [0, 0, 1 / 2, 1, 1] := by
  rw [makeUniform_eq]; norm_num [List.range_succ, List.replicate]
example : getPolynomialDegreeFromKnotVector (makeUniformKnotVector 3 7 2 : List ℚ) = 3 :=
  C06_degree_query 3 7 2 (by norm_num) (by norm_num)
example : getPolynomialDegreeFromKnotVector (makeUniformKnotVector 3 10000000 2 : List ℚ) ≠ 3 :=
  C06_degree_query_limit 3 10000000 2 (by norm_num) (by norm_num) (by norm_num)

/-! ## C07 -/

/-- consecutive entries keep the minimum gap `tol` -/
theorem extractUniqueLoop_spec (l : List K) : ∀ prev last : K, last ≤ prev →
    (prev :: l).Pairwise (· ≤ ·) →
    (extractUniqueLoop prev l).Pairwise (fun a b => a + genericTolerance K < b) ∧
      (∀ k ∈ extractUniqueLoop prev l, k ∈ l ∧ last + genericTolerance K < k) := by
  induction l with
  | nil => intro prev last _ _; simp [extractUniqueLoop]
  | cons k rest ih =>
    intro prev last hle hs
    have hs' : (k :: rest).Pairwise (· ≤ ·) := (List.pairwise_cons.1 hs).2
    have hpk : prev ≤ k := (List.pairwise_cons.1 hs).1 k (by simp)
    rw [extractUniqueLoop]
    split
    · rename_i h
      obtain ⟨h1, h2⟩ := ih k k le_rfl hs'
      refine ⟨List.pairwise_cons.2 ⟨fun b hb => (h2 b hb).2, h1⟩, ?_⟩
      intro x hx
      rcases List.mem_cons.1 hx with rfl | hx
      · exact ⟨by simp, by linarith⟩
      · refine ⟨List.mem_cons_of_mem _ (h2 x hx).1, ?_⟩
        have := (h2 x hx).2
        linarith
    · rename_i h
      obtain ⟨h1, h2⟩ := ih k last (hle.trans hpk) hs'
      exact ⟨h1, fun x hx => ⟨List.mem_cons_of_mem _ (h2 x hx).1, (h2 x hx).2⟩⟩

/-- C07: for a sorted vector, the unique knots start with the first knot, are taken from the
input, and any two of them are more than the tolerance apart (so strictly increasing). -/
theorem C07_unique_strict (k : K) (rest : List K) (hs : (k :: rest).Pairwise (· ≤ ·)) :
    ∃ out, extractUniqueKnotVector (k :: rest) = some out ∧ out.head? = some k ∧
      (∀ a ∈ out, a ∈ k :: rest) ∧
      out.Pairwise (fun a b => a + genericTolerance K < b) := by
  obtain ⟨h1, h2⟩ := extractUniqueLoop_spec rest k k le_rfl hs
  refine ⟨_, rfl, rfl, ?_, List.pairwise_cons.2 ⟨fun b hb => (h2 b hb).2, h1⟩⟩
  intro a ha
  rcases List.mem_cons.1 ha with rfl | ha
  · simp
  · exact List.mem_cons_of_mem _ (h2 a ha).1

theorem extractUniqueLoop_mem (l : List K) : ∀ prev : K,
    (prev :: l).IsChain (fun a b => a = b ∨ a + genericTolerance K < b) →
    ∀ k ∈ l, k = prev ∨ k ∈ extractUniqueLoop prev l := by
  induction l with
  | nil => intro prev _ k hk; simp at hk
  | cons a rest ih =>
    intro prev hc k hk
    rw [List.isChain_cons_cons] at hc
    rw [extractUniqueLoop]
    rcases List.mem_cons.1 hk with rfl | hk
    · rcases hc.1 with h | h
      · exact Or.inl h.symm
      · right; rw [if_pos h]; simp
    · rcases ih a hc.2 k hk with h | h
      · subst h
        rcases hc.1 with h' | h'
        · exact Or.inl h'.symm
        · right; rw [if_pos h']; simp
      · right; split
        · exact List.mem_cons_of_mem _ h
        · exact h

/-- C07: when neighbouring knots are either equal or more than the tolerance apart, the unique knots
are exactly the distinct knots (in particular first and last knot are kept). -/
theorem C07_unique_mem_partial (k : K) (rest : List K)
    (hc : (k :: rest).IsChain (fun a b => a = b ∨ a + genericTolerance K < b)) :
    ∃ out, extractUniqueKnotVector (k :: rest) = some out ∧
      (∀ a, a ∈ out ↔ a ∈ k :: rest) ∧ out.getLast? = (k :: rest).getLast? := by
  have htol : (0 : K) < genericTolerance K := by unfold genericTolerance; positivity
  have hs : (k :: rest).Pairwise (· ≤ ·) := by
    rw [← List.isChain_iff_pairwise]
    refine hc.imp ?_
    rintro a b (rfl | h)
    · exact le_rfl
    · linarith
  obtain ⟨out, h1, h2, h3, h4⟩ := C07_unique_strict k rest hs
  have hmem : ∀ a, a ∈ out ↔ a ∈ k :: rest := by
    intro a
    refine ⟨h3 a, fun ha => ?_⟩
    rw [extractUniqueKnotVector, Option.some.injEq] at h1
    subst h1
    rcases List.mem_cons.1 ha with rfl | ha
    · simp
    · rcases extractUniqueLoop_mem rest k hc a ha with rfl | h
      · simp
      · exact List.mem_cons_of_mem _ h
  refine ⟨out, h1, hmem, ?_⟩
  have hne : out ≠ [] := by rintro rfl; simp at h2
  have hne' : k :: rest ≠ [] := by simp
  rw [List.getLast?_eq_some_getLast hne, List.getLast?_eq_some_getLast hne', Option.some.injEq]
  have hlt : out.Pairwise (· ≤ ·) := h4.imp (fun {a b} h => by linarith)
  apply le_antisymm
  · exact hs.rel_getLast ((hmem _).1 (List.getLast_mem hne))
  · exact hlt.rel_getLast ((hmem _).2 (List.getLast_mem hne'))

/-- C07 is violated for knots closer than the tolerance: the last knot is lost, so that the unique
vector no longer ends at 1. -/
theorem C07_unique_violated :
    extractUniqueKnotVector ([0, 1 - 1 / 2000000, 1] : List ℚ) = some [0, 1 - 1 / 2000000] := by
  norm_num [extractUniqueKnotVector, extractUniqueLoop, genericTolerance]

theorem findLocationLoop_spec (x : K) (size : Nat) : ∀ (l : List K) (i : Nat), 2 ≤ l.length →
    i + l.length = size →
    (∀ a, l.head? = some a → a ≤ x) → (∀ b, l.getLast? = some b → x ≤ b) →
    ∃ j a b, findLocationLoop x size i l = ((i + j : Nat) : Int) ∧
      l[j]? = some a ∧ l[j + 1]? = some b ∧ a ≤ x ∧ x ≤ b ∧
      (x < b ∨ j + 2 = l.length) := by
  intro l
  induction l with
  | nil => intro i h; simp at h
  | cons a l ih =>
    intro i hlen hsz hhd hlast
    match l, hlen with
    | [b], _ =>
      have ha : a ≤ x := hhd a rfl
      have hb : x ≤ b := hlast b rfl
      refine ⟨0, a, b, ?_, rfl, rfl, ha, hb, Or.inr rfl⟩
      simp only [findLocationLoop]
      simp at hsz
      split
      · simp
      · omega
    | b :: c :: rest, _ =>
      have ha : a ≤ x := hhd a rfl
      rw [findLocationLoop]
      by_cases h : a ≤ x ∧ b > x
      · rw [if_pos h]
        exact ⟨0, a, b, by simp, rfl, rfl, ha, h.2.le, Or.inl h.2⟩
      · rw [if_neg h]
        have hbx : b ≤ x := by
          by_contra hb; exact h ⟨ha, lt_of_not_ge hb⟩
        obtain ⟨j, a', b', h1, h2, h3, h4, h5, h6⟩ := ih (i + 1) (by simp) (by simp at hsz ⊢; omega)
          (fun y hy => by simp at hy; exact hy ▸ hbx)
          (fun y hy => hlast y (by simpa using hy))
        refine ⟨j + 1, a', b', by rw [h1]; congr 1; omega, by simpa using h2, by simpa using h3, h4, h5, ?_⟩
        rcases h6 with h6 | h6
        · exact Or.inl h6
        · right; simp at h6 ⊢; omega

/-- C07: for a unique-knot vector on `[0,1]` (first knot 0, last knot 1, second knot farther than the
tolerance) and every `x ∈ [0,1]` the returned index names a span of the vector which contains `x`;
on the right `x` is strictly inside unless the span is the last one. -/
theorem C07_location (v : List K) (x : K) (hlen : 2 ≤ v.length)
    (h0 : v.head? = some 0) (h1 : v.getLast? = some 1)
    (hgap : v.Pairwise (fun a b => a + genericTolerance K < b)) (hx0 : 0 ≤ x) (hx1 : x ≤ 1) :
    ∃ (j : Nat) (a b : K), findLocationInKnotVector x v = (j : Int) ∧
      v[j]? = some a ∧ v[j + 1]? = some b ∧ a ≤ x ∧ x ≤ b ∧ (x < b ∨ j + 2 = v.length) := by
  unfold findLocationInKnotVector
  split
  · rename_i h
    match v, hlen with
    | a :: b :: rest, _ =>
      have ha : a = 0 := by simpa using h0
      have hab : a + genericTolerance K < b := (List.pairwise_cons.1 hgap).1 b (by simp)
      subst ha
      have hxb : x < b := by linarith [h.1]
      exact ⟨0, 0, b, rfl, rfl, rfl, hx0, hxb.le, Or.inl hxb⟩
  · obtain ⟨j, a, b, h1', h2, h3, h4, h5, h6⟩ := findLocationLoop_spec x v.length v 0 hlen (by simp)
      (fun a ha => by rw [h0] at ha; simp at ha; exact ha ▸ hx0)
      (fun b hb => by rw [h1] at hb; simp at hb; exact hb ▸ hx1)
    exact ⟨j, a, b, by simpa using h1', h2, h3, h4, h5, h6⟩

example : ∃ (j : Nat) (a b : ℚ), findLocationInKnotVector (1 / 2) ([0, 1 / 2, 1] : List ℚ) = (j : Int) ∧
      ([0, 1 / 2, 1] : List ℚ)[j]? = some a ∧ ([0, 1 / 2, 1] : List ℚ)[j + 1]? = some b ∧
      a ≤ 1 / 2 ∧ 1 / 2 ≤ b ∧ (1 / 2 < b ∨ j + 2 = ([0, 1 / 2, 1] : List ℚ).length) :=
  C07_location _ _ (by simp) rfl rfl (by norm_num [genericTolerance]) (by norm_num) (by norm_num)

/-! ## C08 -/

variable {V : Type} [AddCommGroup V] [Module K V]

/-- Existence of the active span and the value of De Boor's scheme in functional form. -/
theorem deBoor_core (maxDeg n p : Nat) (c : Nat → V) (t : Nat → K) (x : K) (ht : Monotone t)
    (hpn : p < n) (hp : p ≤ maxDeg) (hlast : t (n - 1) < t n) (hx0 : t p ≤ x) (hx1 : x ≤ t n) :
    ∃ l, p ≤ l ∧ l < n ∧ t l ≤ x ∧ x ≤ t (l + 1) ∧ t l < t (l + 1) ∧
      (∀ i, Spec.inSpan t n i x ↔ i = l) ∧
      deBoor maxDeg ((List.range n).map c) ((List.range (n + p + 1)).map t) x =
        some (loopF t x l p (fun i => c (l - p + i)) 0) := by
  have hk : ∀ i, i < n + p + 1 → ((List.range (n + p + 1)).map t)[i]? = some (t i) := by
    intro i hi
    simp [List.getElem?_range hi]
  obtain ⟨l1, h1, h2, h3, h4⟩ := spanLoop_spec t ((List.range (n + p + 1)).map t) x n
    (fun i hi => hk i (by omega)) n 0 (by omega) (by intro j hj; omega)
  have hpl : p < l1 := by
    by_contra h
    have := h4 (by omega)
    have := ht (show l1 ≤ p by omega)
    exact absurd (lt_of_lt_of_le ‹x < t l1› this) (not_lt.2 hx0)
  obtain ⟨l, rfl⟩ := Nat.exists_eq_add_of_lt (show 0 < l1 by omega)
  simp only [Nat.zero_add] at *
  have hl0 : t l ≤ x := h3 l (by omega)
  have hl1 : x ≤ t (l + 1) ∧ t l < t (l + 1) ∧ (x < t (l + 1) ∨ l + 1 = n) := by
    rcases Nat.lt_or_ge (l + 1) n with h | h
    · have := h4 h; exact ⟨this.le, lt_of_le_of_lt hl0 this, Or.inl this⟩
    · have : l + 1 = n := by omega
      subst this
      exact ⟨hx1, hlast, Or.inr rfl⟩
  have hspan : ∀ i, Spec.inSpan t n i x ↔ i = l := by
    intro i
    unfold Spec.inSpan
    constructor
    · rintro ⟨hin, ha, hb⟩
      rcases lt_trichotomy i l with h | h | h
      · exfalso
        have m1 : t (i + 1) ≤ t l := ht (by omega)
        rcases hb with hb | ⟨hb1, hb2, hb3⟩
        · exact absurd (lt_of_lt_of_le hb (m1.trans hl0)) (lt_irrefl _)
        · -- x = t n, t (i+1) = t n ≤ t l < t (l+1) ≤ t n
          have m2 : t (l + 1) ≤ t n := ht (by omega)
          have := hl1.2.1
          rw [hb2] at m1
          exact absurd (lt_of_le_of_lt m1 (lt_of_lt_of_le this m2)) (lt_irrefl _)
      · exact h
      · exfalso
        have m1 : t (l + 1) ≤ t i := ht (by omega)
        rcases hl1.2.2 with hc | hc
        · exact absurd (lt_of_lt_of_le hc (m1.trans ha)) (lt_irrefl _)
        · omega
    · rintro rfl
      refine ⟨by omega, hl0, ?_⟩
      rcases hl1.2.2 with h | h
      · exact Or.inl h
      · subst h
        rcases lt_or_eq_of_le hx1 with h | h
        · exact Or.inl h
        · exact Or.inr ⟨h, rfl, hlast⟩
  refine ⟨l, by omega, by omega, hl0, hl1.1, hl1.2.1, hspan, ?_⟩
  have hne : ∀ i j, i < p → l < p + j → j ≤ l → t (l + 1 + i) - t j ≠ 0 := by
    intro i j _ _ hj
    have m1 : t (l + 1) ≤ t (l + 1 + i) := ht (by omega)
    have m2 : t j ≤ t l := ht hj
    have := hl1.2.1
    exact (sub_pos.2 (lt_of_le_of_lt m2 (lt_of_lt_of_le this m1))).ne'
  have htake : (((List.range n).map c).drop (l - p)).take (p + 1) =
      (List.range (p + 1)).map (fun i => c (l - p + i)) := by
    apply List.ext_getElem?
    intro i
    rcases Nat.lt_or_ge i (p + 1) with hi | hi
    · rw [List.getElem?_take_of_lt hi, List.getElem?_drop]
      simp [List.getElem?_range (show l - p + i < n by omega), List.getElem?_range hi]
    · rw [List.getElem?_eq_none (by simp; omega), List.getElem?_eq_none (by simp; omega)]
  have hloop := deBoorLoop_eq t ((List.range (n + p + 1)).map t) x l p (fun i => c (l - p + i))
    (by omega) (fun i j h1 h2 h3 => ⟨hk j (by omega), hk (l + 1 + i) (by omega), hne i j h1 h2 h3⟩)
  have hhi : x ≤ t (n + p) := hx1.trans (ht (by omega))
  unfold deBoor
  simp only [List.length_map, List.length_range]
  rw [if_neg (by omega), show n + p + 1 - n - 1 = p by omega, hk p (by omega), hk (n + p) (by omega)]
  simp only [Option.bind_eq_bind, Option.bind_some]
  rw [if_neg (by simp [hx0, hhi]), h1]
  simp only [Option.bind_some]
  rw [if_neg (by omega), show l + 1 - 1 = l by omega, if_neg (by omega), if_neg (by omega), htake, hloop]
  simp

/-- C08: for every non-decreasing knot sequence with `n + p + 1` knots whose last span `[t (n-1), t n]`
is not empty (as for every `p`-open knot vector), all control coefficients `c 0 … c (n-1)` in a
`K`-module (scalars, columns, matrices) and every `x` in `[t p, t n]`, De Boor's algorithm runs without
out-of-range access and without division by zero, and returns `∑ᵢ N_{i,p}(x) cᵢ`. -/
theorem C08_deBoor (maxDeg n p : Nat) (c : Nat → V) (t : Nat → K) (x : K) (ht : Monotone t)
    (hpn : p < n) (hp : p ≤ maxDeg) (hlast : t (n - 1) < t n) (hx0 : t p ≤ x) (hx1 : x ≤ t n) :
    deBoor maxDeg ((List.range n).map c) ((List.range (n + p + 1)).map t) x =
      some (∑ i ∈ range n, Spec.bspline t n x p i • c i) := by
  obtain ⟨l, hpl, hln, hl0, hl1, hl2, hspan, h⟩ := deBoor_core maxDeg n p c t x ht hpn hp hlast hx0 hx1
  rw [h, loopF_sum t n x l hspan p _ hpl]
  · congr 1
    have hsub : (range (p + 1)).image (fun j => l - p + j) ⊆ range n := by
      intro i hi
      obtain ⟨j, hj, rfl⟩ := Finset.mem_image.1 hi
      rw [Finset.mem_range] at hj ⊢
      omega
    rw [← Finset.sum_subset hsub, Finset.sum_image (by intro a _ b _ h; simpa using h)]
    intro i hi hni
    rw [bspline_support t n x l hspan p i, zero_smul]
    by_contra hcon
    push Not at hcon
    exact hni (Finset.mem_image.2 ⟨i - (l - p), by rw [Finset.mem_range]; omega, by omega⟩)
  · intro i j _ _ hj
    have m1 : t (l + 1) ≤ t (l + 1 + i) := ht (by omega)
    have m2 : t j ≤ t l := ht hj
    exact (sub_pos.2 (lt_of_le_of_lt m2 (lt_of_lt_of_le hl2 m1))).ne'

/-- C08 for all evaluation points of a call. -/
theorem C08_deBoorAll (maxDeg n p : Nat) (c : Nat → V) (t : Nat → K) (xs : List K) (ht : Monotone t)
    (hpn : p < n) (hp : p ≤ maxDeg) (hlast : t (n - 1) < t n) (hx : ∀ x ∈ xs, t p ≤ x ∧ x ≤ t n) :
    deBoorAll maxDeg ((List.range n).map c) ((List.range (n + p + 1)).map t) xs =
      some (xs.map fun x => ∑ i ∈ range n, Spec.bspline t n x p i • c i) :=
  mapM_eq_some_map _ _ _ fun x h =>
    C08_deBoor maxDeg n p c t x ht hpn hp hlast (hx x h).1 (hx x h).2

/-- The order-`(p+1)` uniform knot vector with `m` simple interior knots meets the hypotheses of `C08_deBoor`
(here: `p = 1`, one interior knot, three hat functions). -/
example : deBoor 20 ([0, 1, 0] : List ℚ) ([0, 0, 1 / 2, 1, 1] : List ℚ) (1 / 4) =
    some (∑ i ∈ range 3, Spec.bspline
      (fun i => if i ≤ 1 then (0 : ℚ) else if i = 2 then 1 / 2 else 1) 3 (1 / 4) 1 i •
      (if i = 1 then (1 : ℚ) else 0)) := by
  have h := C08_deBoor 20 3 1 (fun i => if i = 1 then (1 : ℚ) else 0)
    (fun i => if i ≤ 1 then (0 : ℚ) else if i = 2 then 1 / 2 else 1) (1 / 4)
    (by
      intro a b hab
      simp only []
      split_ifs <;> first | omega | norm_num) (by norm_num) (by norm_num) (by norm_num)
    (by norm_num) (by norm_num)
  simpa [List.range_succ] using h

/-! ## C09 -/

omit [LinearOrder K] [IsStrictOrderedRing K] in
theorem loopF_const [LinearOrder K] (t : Nat → K) (x : K) (l : Nat) (v : V) : ∀ k (f : Nat → V),
    (∀ i ≤ k, f i = v) → loopF t x l k f 0 = v := by
  intro k
  induction k with
  | zero => intro f h; exact h 0 le_rfl
  | succ k ih =>
    intro f h
    rw [loopF]
    apply ih
    intro i hi
    rw [passF, h (1 + i) (by omega), h i (by omega)]
    module

omit [LinearOrder K] [IsStrictOrderedRing K] in
theorem loopF_add [LinearOrder K] (t : Nat → K) (x : K) (l : Nat) : ∀ k (f g : Nat → V),
    loopF t x l k (fun i => f i + g i) 0 = loopF t x l k f 0 + loopF t x l k g 0 := by
  intro k
  induction k with
  | zero => intro f g; rfl
  | succ k ih =>
    intro f g
    rw [loopF, loopF, loopF, ← ih]
    congr 1
    funext i
    simp only [passF]
    module

/-- C09: constant control coefficients give the constant. -/
theorem C09_constant (maxDeg n p : Nat) (v : V) (t : Nat → K) (x : K) (ht : Monotone t)
    (hpn : p < n) (hp : p ≤ maxDeg) (hlast : t (n - 1) < t n) (hx0 : t p ≤ x) (hx1 : x ≤ t n) :
    deBoor maxDeg (List.replicate n v) ((List.range (n + p + 1)).map t) x = some v := by
  obtain ⟨l, -, -, -, -, -, -, h⟩ := deBoor_core maxDeg n p (fun _ => v) t x ht hpn hp hlast hx0 hx1
  rw [loopF_const t x l v p _ (fun _ _ => rfl)] at h
  simpa using h

/-- C09: the B-spline functions sum to one on the parameter domain. -/
theorem C09_partition_of_unity (n p : Nat) (t : Nat → K) (x : K) (ht : Monotone t)
    (hpn : p < n) (hlast : t (n - 1) < t n) (hx0 : t p ≤ x) (hx1 : x ≤ t n) :
    ∑ i ∈ range n, Spec.bspline t n x p i = 1 := by
  have h1 := C08_deBoor p n p (fun _ => (1 : K)) t x ht hpn le_rfl hlast hx0 hx1
  have h2 := C09_constant p n p (1 : K) t x ht hpn le_rfl hlast hx0 hx1
  rw [show List.replicate n (1 : K) = (List.range n).map (fun _ => (1 : K)) by simp, h1] at h2
  simpa using h2

/-- C09: adding a constant to all control coefficients adds it to the value (affine invariance). -/
theorem C09_translate (maxDeg n p : Nat) (c : Nat → V) (v r : V) (t : Nat → K) (x : K)
    (ht : Monotone t)
    (hpn : p < n) (hp : p ≤ maxDeg) (hlast : t (n - 1) < t n) (hx0 : t p ≤ x) (hx1 : x ≤ t n)
    (hr : deBoor maxDeg ((List.range n).map c) ((List.range (n + p + 1)).map t) x = some r) :
    deBoor maxDeg ((List.range n).map fun i => c i + v) ((List.range (n + p + 1)).map t) x =
      some (r + v) := by
  rw [C08_deBoor maxDeg n p c t x ht hpn hp hlast hx0 hx1, Option.some.injEq] at hr
  rw [C08_deBoor maxDeg n p _ t x ht hpn hp hlast hx0 hx1, ← hr]
  simp only [smul_add, Finset.sum_add_distrib, ← Finset.sum_smul,
    C09_partition_of_unity n p t x ht hpn hlast hx0 hx1, one_smul]

theorem loopF_convex (t : Nat → K) (x : K) (l : Nat) (ht : Monotone t) (hl0 : t l ≤ x)
    (hl1 : x ≤ t (l + 1)) (hl2 : t l < t (l + 1)) (S : Set V) (hS : Convex K S) :
    ∀ k (f : Nat → V), k ≤ l → (∀ i ≤ k, f i ∈ S) → loopF t x l k f 0 ∈ S := by
  intro k
  induction k with
  | zero => intro f _ h; exact h 0 le_rfl
  | succ k ih =>
    intro f hk h
    rw [loopF]
    refine ih _ (by omega) fun i hi => ?_
    have m1 : t (l + 1) ≤ t (l + 1 + i) := ht (by omega)
    have m2 : t (l + 1 - (k + 1) + i) ≤ t l := ht (by omega)
    have hpos : 0 < t (l + 1 + i) - t (l + 1 - (k + 1) + i) :=
      sub_pos.2 (lt_of_le_of_lt m2 (lt_of_lt_of_le hl2 m1))
    have w0 : 0 ≤ wgt t x l (k + 1) i := div_nonneg (by linarith) hpos.le
    have w1 : wgt t x l (k + 1) i ≤ 1 := by
      unfold wgt; rw [div_le_one hpos]; linarith
    exact hS (h (1 + i) (by omega)) (h i (by omega)) w0 (by linarith) (by ring)

/-- C09: the value lies in every convex set that contains the `p + 1` active control coefficients
`c (l-p), …, c l`, where `l` is the knot span of `x`. -/
theorem C09_convex_hull (maxDeg n p : Nat) (c : Nat → V) (t : Nat → K) (x : K) (ht : Monotone t)
    (hpn : p < n) (hp : p ≤ maxDeg) (hlast : t (n - 1) < t n) (hx0 : t p ≤ x) (hx1 : x ≤ t n) :
    ∃ l r, p ≤ l ∧ l < n ∧ t l ≤ x ∧ x ≤ t (l + 1) ∧
      deBoor maxDeg ((List.range n).map c) ((List.range (n + p + 1)).map t) x = some r ∧
      ∀ S : Set V, Convex K S → (∀ i, l - p ≤ i → i ≤ l → c i ∈ S) → r ∈ S := by
  obtain ⟨l, hpl, hln, hl0, hl1, hl2, -, h⟩ := deBoor_core maxDeg n p c t x ht hpn hp hlast hx0 hx1
  refine ⟨l, _, hpl, hln, hl0, hl1, h, fun S hS hc => ?_⟩
  exact loopF_convex t x l ht hl0 hl1 hl2 S hS p _ hpl (fun i hi => hc _ (by omega) (by omega))

/-- C09: scalar values lie between the smallest and the largest active control coefficient. -/
theorem C09_bounds (maxDeg n p : Nat) (c : Nat → K) (t : Nat → K) (x : K) (ht : Monotone t)
    (hpn : p < n) (hp : p ≤ maxDeg) (hlast : t (n - 1) < t n) (hx0 : t p ≤ x) (hx1 : x ≤ t n) :
    ∃ l r, p ≤ l ∧ l < n ∧ t l ≤ x ∧ x ≤ t (l + 1) ∧
      deBoor maxDeg ((List.range n).map c) ((List.range (n + p + 1)).map t) x = some r ∧
      ∀ lo hi : K, (∀ i, l - p ≤ i → i ≤ l → lo ≤ c i ∧ c i ≤ hi) → lo ≤ r ∧ r ≤ hi := by
  obtain ⟨l, r, h1, h2, h3, h4, h5, h6⟩ := C09_convex_hull maxDeg n p c t x ht hpn hp hlast hx0 hx1
  refine ⟨l, r, h1, h2, h3, h4, h5, fun lo hi hc => ?_⟩
  have := h6 (Set.Icc lo hi) (convex_Icc lo hi) (fun i ha hb => ⟨(hc i ha hb).1, (hc i ha hb).2⟩)
  exact this

/-- non-vacuity of C09: the hypotheses hold for the quadratic Bezier knots. -/
example : deBoor 20 (List.replicate 3 (7 : ℚ)) ((List.range (3 + 2 + 1)).map fun (i : Nat) =>
    if i ≤ 2 then (0 : ℚ) else 1) (1 / 3) = some 7 :=
  C09_constant 20 3 2 (7 : ℚ) (fun i => if i ≤ 2 then (0 : ℚ) else 1) (1 / 3)
    (by
      intro a b hab
      simp only []
      split_ifs <;> first | omega | norm_num) (by norm_num) (by norm_num) (by norm_num)
    (by norm_num) (by norm_num)

end Bembel.Props
