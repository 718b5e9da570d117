import Verif.Spec.Quadrature
import Verif.Lemmas.Moments
import Verif.Spec.Moments
import Mathlib.Topology.Algebra.Polynomial
import Mathlib.MeasureTheory.Integral.IntervalIntegral.Basic
/-!
# C42: moment matrices and nested cluster bases
-/

namespace Bembel
namespace Props
open Finset H2 Mesh Basis

theorem posX_append (p l : List Nat) : posX (p ++ l) = posX p + 2 ^ p.length * posX l ∧
    posY (p ++ l) = posY p + 2 ^ p.length * posY l := by
  induction p with
  | nil => simp [posX, posY]
  | cons c p ih =>
    simp only [List.cons_append, posX, posY, ih.1, ih.2, List.length_cons, pow_succ]
    constructor <;> ring

theorem pathId_append (q : Nat) (p l : List Nat) : pathId q (p ++ l) = pathId q l * 4 ^ p.length + pathId 0 p := by
  induction p with
  | nil => simp [pathId]
  | cons c p ih =>
    simp only [List.cons_append, pathId, ih, List.length_cons, pow_succ]
    ring

theorem pathId_zero_lt (p : List Nat) (h : ∀ x ∈ p, x < 4) : pathId 0 p < 4 ^ p.length := by
  induction p with
  | nil => simp [pathId]
  | cons c p ih =>
    have h1 := ih fun x hx => h x (by simp [hx])
    have h2 := h c (by simp)
    simp only [pathId, List.length_cons, pow_succ]
    omega

/-- Elements of a cluster in tree order. -/
theorem cluster_order {K V : Type} [Field K] [LinearOrder K] [IsStrictOrderedRing K] (near : V → V → Bool)
    (corner : Nat → Nat → V) (P M : Nat) (hP : 0 < P) : ∃ t : Mesh.Tree K, initElementTree near corner P M = some t ∧
    ∀ l s, l + s = M → ∀ a, IsNode P l a → ∃ L, clusterElements t a = some L ∧ L.length = 4 ^ s ∧
      ∀ k b, L[k]? = some b → k < 4 ^ s ∧ getH t b = 1 / 2 ^ M ∧ ∀ xi : K × K,
        inCluster t a b xi = ((mx k + xi.1) / 2 ^ s, (my k + xi.2) / 2 ^ s) := by
  obtain ⟨t, h1, h2, _⟩ := tree_facts (K := K) near corner P M hP
  obtain ⟨t', h1', h25⟩ := C25_cluster_range (K := K) near corner P M hP
  obtain rfl : t = t' := Option.some.inj (h1.symm.trans h1')
  refine ⟨t, h1, ?_⟩
  intro l s hls a ha
  obtain ⟨L, hL, hmem, hids⟩ := h25 l a (by omega) ha
  rw [show M - l = s by omega] at hmem hids
  have hlen : L.length = 4 ^ s := by
    have := congrArg List.length hids
    simpa using this
  refine ⟨L, hL, hlen, ?_⟩
  intro k b hk
  have hk4 : k < 4 ^ s := by
    obtain ⟨h, _⟩ := List.getElem?_eq_some_iff.mp hk
    omega
  obtain ⟨path, hp1, hp2, rfl⟩ := (hmem b).1 (List.mem_of_getElem? hk)
  have hnode : IsNode P M (a.1, path ++ a.2) := by
    refine ⟨ha.1, by simp [hp1, ha.2.1]; omega, ?_⟩
    intro x hx
    rcases List.mem_append.mp hx with h | h
    · exact hp2 x h
    · exact ha.2.2 x h
  obtain ⟨ga1, ga2, ga3, ga4⟩ := h2 l (by omega) a (mem_leaves.2 ha)
  obtain ⟨gb1, gb2, gb3, gb4⟩ := h2 M le_rfl _ (mem_leaves.2 hnode)
  have hid : t.id (a.1, path ++ a.2) = t.id a * 4 ^ s + k := by
    have h : (L.map t.id)[k]? = some (t.id (a.1, path ++ a.2)) := by rw [List.getElem?_map, hk]; rfl
    rw [hids, List.getElem?_map, List.getElem?_range hk4] at h
    exact (Option.some.inj h).symm
  rw [gb1, ga1, pathId_append, hp1] at hid
  have hk' : pathId 0 path = k := Nat.add_left_cancel hid
  obtain ⟨x1, y1⟩ := m_path path hp2
  rw [hk'] at x1 y1
  obtain ⟨x2, y2⟩ := posX_append path a.2
  rw [hp1] at x2 y2
  have hM : (path ++ a.2).length = M := hnode.2.1
  refine ⟨hk4, ?_, ?_⟩
  · unfold getH; rw [gb2, hM]
  · intro xi
    unfold inCluster mapToReferenceElement getH
    rw [gb4, ga4, gb2, ga2]
    simp only [hM, ha.2.1, x1, y1, x2, y2]
    have e : M = s + l := by omega
    have p1 : (2:K) ^ l ≠ 0 := by positivity
    have p2 : (2:K) ^ s ≠ 0 := by positivity
    refine Prod.ext ?_ ?_
    · simp only [e, pow_add, Nat.cast_add, Nat.cast_mul, Nat.cast_pow, Nat.cast_ofNat]; field_simp; ring
    · simp only [e, pow_add, Nat.cast_add, Nat.cast_mul, Nat.cast_pow, Nat.cast_ofNat]; field_simp; ring

/-- C42: for every cluster with `4^r` elements, the position used for the element number `k` (in the order of the
iteration over the cluster) is its position in the `2^r × 2^r` grid of the cluster: local coordinates `xi` in the
element are the coordinates `(index + xi) / 2^r` in the cluster. -/
theorem C42_positions {K V : Type} [Field K] [LinearOrder K] [IsStrictOrderedRing K] (near : V → V → Bool)
    (corner : Nat → Nat → V) (P M : Nat) (hP : 0 < P) : ∃ t : Mesh.Tree K, initElementTree near corner P M = some t ∧
    ∀ l r, l + r = M → ∀ a, IsNode P l a → ∃ L, clusterElements t a = some L ∧ L.length = 4 ^ r ∧
      ∀ k b, L[k]? = some b → ∀ xi : K × K,
        inCluster t a b xi = (((mortonIndices r).1 k + xi.1) / 2 ^ r, ((mortonIndices r).2 k + xi.2) / 2 ^ r) := by
  obtain ⟨t, h1, h2⟩ := cluster_order (K := K) near corner P M hP
  refine ⟨t, h1, ?_⟩
  intro l r hlr a ha
  obtain ⟨L, hL, hlen, h⟩ := h2 l r hlr a ha
  refine ⟨L, hL, hlen, ?_⟩
  intro k b hk xi
  obtain ⟨hk4, _, h3⟩ := h k b hk
  rw [h3, (morton_eq r k hk4).1, (morton_eq r k hk4).2]

theorem phi_add (buf : Nat → ℝ) (p : Nat) (v : Nat → ℝ) (s x : ℝ) (m : Nat) (hm : m ≤ p) :
    phi buf p v s x m = v m + s * B p m x := by
  rw [C01_phi, if_pos hm]

/-- derivative of the Bernstein polynomial -/
noncomputable abbrev dB (p i : Nat) (x : ℝ) : ℝ := (Polynomial.derivative (bernsteinPolynomial ℝ p i)).eval x

theorem phiDx_add (buf : Nat → ℝ) (p : Nat) (v : Nat → ℝ) (s x : ℝ) (m : Nat) (hm : m ≤ p) :
    phiDx buf p v s x m = v m + s * dB p m x := by
  have h := forLoop_add_apply (p + 1) (fun i => s * EvalBernsteinDerBasis p buf x i) v 0 m
  simp only [Nat.zero_add, Nat.zero_le, true_and, Nat.sub_zero] at h
  unfold phiDx
  rw [h, C03_der_basis, if_pos (by omega), if_pos hm]

theorem moments_general (E : MomentEnv) (junkE junkT : Nat → Nat → ℝ) (Q : Quad1 ℝ)
    (add1 add2 : (Nat → ℝ) → ℝ → ℝ → (Nat → ℝ)) (b1 b2 : Nat → ℝ → ℝ) (s1 s2 : ℝ → ℝ) (p r np : Nat)
    (h1 : ∀ v s x m, m ≤ p → add1 v s x m = v m + s * b1 m x)
    (h2 : ∀ v s x m, m ≤ p → add2 v s x m = v m + s * b2 m x)
    (hx : Distinct (E.pts np) np) (d i j k ix iy : Nat) (hi : i < np) (hj : j < np) (hk : k < 4 ^ (r + d))
    (hix : ix ≤ p) (hiy : iy ≤ p) :
    clusterBasis (np * np) ((p + 1) * (p + 1) * 4 ^ r)
      (moment2DComputer (moment1DLoop E.pts E.junk1 Q add1 s1 p r np) (moment1DLoop E.pts E.junk1 Q add2 s2 p r np)
        E.junk2 p r np) (computeTransferMatrices E.pts junkE junkT np) d (i * np + j)
      ((p + 1) * (p + 1) * k + (iy * (p + 1) + ix)) =
    ∑ q ∈ range Q.size, ∑ q' ∈ range Q.size, s1 (Q.w q) * s2 (Q.w q') *
      (lagrange (E.pts np) np i ((mx k + Q.xi q) / 2 ^ (r + d)) *
        lagrange (E.pts np) np j ((my k + Q.xi q') / 2 ^ (r + d))) * (b1 ix (Q.xi q) * b2 iy (Q.xi q')) := by
  have hm : iy * (p + 1) + ix < (p + 1) * (p + 1) := by nlinarith
  have hmod : (iy * (p + 1) + ix) % (p + 1) = ix := by
    rw [Nat.mul_comm, Nat.mul_add_mod, Nat.mod_eq_of_lt (by omega)]
  have hdiv : (iy * (p + 1) + ix) / (p + 1) = iy := by
    rw [Nat.mul_comm, Nat.mul_add_div (by omega), Nat.div_eq_of_lt (by omega), Nat.add_zero]
  have h := nested_eq E.pts junkE junkT np ((p + 1) * (p + 1)) r hx
    (moment2DComputer (moment1DLoop E.pts E.junk1 Q add1 s1 p r np) (moment1DLoop E.pts E.junk1 Q add2 s2 p r np)
        E.junk2 p r np) (range Q.size ×ˢ range Q.size)
    (fun q m => s1 (Q.w q.1) * s2 (Q.w q.2) * (b1 (m % (p + 1)) (Q.xi q.1) * b2 (m / (p + 1)) (Q.xi q.2)))
    (fun q => (Q.xi q.1, Q.xi q.2)) (by
      intro i hi j hj k hk m hm
      have hm1 : m % (p + 1) ≤ p := Nat.le_of_lt_succ (Nat.mod_lt m (Nat.succ_pos p))
      have hm2 : m / (p + 1) ≤ p := by
        have : m / (p + 1) < p + 1 := by rw [Nat.div_lt_iff_lt_mul (by omega)]; exact hm
        omega
      obtain ⟨hl1, hl2⟩ := m_lt r k hk
      have := moment2D_entry (moment1DLoop E.pts E.junk1 Q add1 s1 p r np) (moment1DLoop E.pts E.junk1 Q add2 s2 p r np)
        E.junk2 p r np i j k (m % (p + 1)) (m / (p + 1)) hi hj hk hm1 hm2
      rw [show m / (p + 1) * (p + 1) + m % (p + 1) = m by rw [Nat.mul_comm]; exact Nat.div_add_mod _ _] at this
      rw [this, moment1D_entry E.pts E.junk1 Q add1 b1 s1 p r np h1 hx i _ _ hi hl1 hm1,
        moment1D_entry E.pts E.junk1 Q add2 b2 s2 p r np h2 hx j _ _ hj hl2 hm2, sum_mul_sum, sum_product]
      exact sum_congr rfl fun q _ => sum_congr rfl fun q' _ => by ring) d i hi j hj k hk _ hm
  rw [h, sum_product]
  refine sum_congr rfl fun q _ => sum_congr rfl fun q' _ => ?_
  simp only [hmod, hdiv]
  ring

/-- C42: row `(i, j)` of the nested basis of a cluster `a` which is `d` levels above the finest clusters (`d = 0` is the
moment matrix itself), at the basis function `(ix, iy)` of element number `k` of `a` (in tree order), is the quadrature
over this element, with weight `h` of the element, of the Lagrange polynomials `i`, `j` of the cluster times the basis
function.  The quadrature is the tensor product of the rule number `gaussIndex`. -/
theorem C42_moments {V : Type} (near : V → V → Bool) (corner : Nat → Nat → V) (P M : Nat) (hP : 0 < P) (E : MomentEnv)
    (junkE junkT : Nat → Nat → ℝ) (p np : Nat) (hx : Distinct (E.pts np) np) :
    ∃ t : Mesh.Tree ℝ, initElementTree near corner P M = some t ∧ ∀ l d r, l + d + r = M → ∀ a, IsNode P l a →
    ∃ L, clusterElements t a = some L ∧ L.length = 4 ^ (r + d) ∧ ∀ k b, L[k]? = some b →
      ∀ i < np, ∀ j < np, ∀ ix ≤ p, ∀ iy ≤ p,
      clusterBasis (np * np) ((p + 1) * (p + 1) * 4 ^ r) (moment E p (M - r) r np)
        (computeTransferMatrices E.pts junkE junkT np) d (i * np + j) ((p + 1) * (p + 1) * k + (iy * (p + 1) + ix)) =
      getH t b * ∑ q ∈ range (E.GL (gaussIndex np p)).size, ∑ q' ∈ range (E.GL (gaussIndex np p)).size,
        let Q := E.GL (gaussIndex np p)
        let y := inCluster t a b (Q.xi q, Q.xi q')
        Q.w q * Q.w q' * (lagrange (E.pts np) np i y.1 * lagrange (E.pts np) np j y.2) *
          (B p ix (Q.xi q) * B p iy (Q.xi q')) := by
  obtain ⟨t, h1, h2⟩ := cluster_order (K := ℝ) near corner P M hP
  refine ⟨t, h1, ?_⟩
  intro l d r hldr a ha
  obtain ⟨L, hL, hlen, h⟩ := h2 l (r + d) (by omega) a ha
  refine ⟨L, hL, hlen, ?_⟩
  intro k b hk i hi j hj ix hix iy hiy
  obtain ⟨hk4, hh, h3⟩ := h k b hk
  unfold moment moment1D
  rw [moments_general E junkE junkT _ _ _ (B p) (B p) _ _ p r np (phi_add E.buf p) (phi_add E.buf p) hx d i j k ix iy hi hj
    hk4 hix hiy, hh, mul_sum]
  have hs : ∀ q q' : ℝ, q * Real.sqrt (1 / ((2 ^ r : ℕ) : ℝ) * (1 / ((2 ^ (M - r) : ℕ) : ℝ))) *
      (q' * Real.sqrt (1 / ((2 ^ r : ℕ) : ℝ) * (1 / ((2 ^ (M - r) : ℕ) : ℝ)))) = 1 / 2 ^ M * (q * q') := by
    intro q q'
    have e : Real.sqrt (1 / ((2 ^ r : ℕ) : ℝ) * (1 / ((2 ^ (M - r) : ℕ) : ℝ))) *
        Real.sqrt (1 / ((2 ^ r : ℕ) : ℝ) * (1 / ((2 ^ (M - r) : ℕ) : ℝ))) = 1 / 2 ^ M := by
      rw [Real.mul_self_sqrt (by positivity), div_mul_div_comm, one_mul]
      congr 1
      push_cast
      rw [← pow_add]
      congr 1
      omega
    linear_combination q * q' * e
  refine sum_congr rfl fun q _ => ?_
  rw [mul_sum]
  refine sum_congr rfl fun q' _ => ?_
  simp only [h3, hs]
  ring

/-- C42, derivatives in the first variable: the factor is one instead of `h`, i.e. the derivative is scaled with `1/h`. -/
theorem C42_moments_dx {V : Type} (near : V → V → Bool) (corner : Nat → Nat → V) (P M : Nat) (hP : 0 < P)
    (E : MomentEnv) (junkE junkT : Nat → Nat → ℝ) (p np : Nat) (hx : Distinct (E.pts np) np) :
    ∃ t : Mesh.Tree ℝ, initElementTree near corner P M = some t ∧ ∀ l d r, l + d + r = M → ∀ a, IsNode P l a →
    ∃ L, clusterElements t a = some L ∧ L.length = 4 ^ (r + d) ∧ ∀ k b, L[k]? = some b →
      ∀ i < np, ∀ j < np, ∀ ix ≤ p, ∀ iy ≤ p,
      clusterBasis (np * np) ((p + 1) * (p + 1) * 4 ^ r) (momentDx E p (M - r) r np)
        (computeTransferMatrices E.pts junkE junkT np) d (i * np + j) ((p + 1) * (p + 1) * k + (iy * (p + 1) + ix)) =
      ∑ q ∈ range (E.GL (gaussIndex np p)).size, ∑ q' ∈ range (E.GL (gaussIndex np p)).size,
        let Q := E.GL (gaussIndex np p)
        let y := inCluster t a b (Q.xi q, Q.xi q')
        Q.w q * Q.w q' * (lagrange (E.pts np) np i y.1 * lagrange (E.pts np) np j y.2) *
          (dB p ix (Q.xi q) * B p iy (Q.xi q')) := by
  obtain ⟨t, h1, h2⟩ := cluster_order (K := ℝ) near corner P M hP
  refine ⟨t, h1, ?_⟩
  intro l d r hldr a ha
  obtain ⟨L, hL, hlen, h⟩ := h2 l (r + d) (by omega) a ha
  refine ⟨L, hL, hlen, ?_⟩
  intro k b hk i hi j hj ix hix iy hiy
  obtain ⟨hk4, hh, h3⟩ := h k b hk
  unfold momentDx moment1D moment1DDerivative
  rw [moments_general E junkE junkT _ _ _ (dB p) (B p) _ _ p r np (phiDx_add E.buf p) (phi_add E.buf p) hx d i j k ix iy
    hi hj hk4 hix hiy]
  have hpos : Real.sqrt (1 / ((2 ^ r : ℕ) : ℝ) * (1 / ((2 ^ (M - r) : ℕ) : ℝ))) ≠ 0 := by
    rw [Real.sqrt_ne_zero']; positivity
  have hs : ∀ q q' : ℝ, q / Real.sqrt (1 / ((2 ^ r : ℕ) : ℝ) * (1 / ((2 ^ (M - r) : ℕ) : ℝ))) *
      (q' * Real.sqrt (1 / ((2 ^ r : ℕ) : ℝ) * (1 / ((2 ^ (M - r) : ℕ) : ℝ)))) = q * q' := by
    intro q q'
    generalize Real.sqrt (1 / ((2 ^ r : ℕ) : ℝ) * (1 / ((2 ^ (M - r) : ℕ) : ℝ))) = s at hpos ⊢
    field_simp
  refine sum_congr rfl fun q _ => sum_congr rfl fun q' _ => ?_
  simp only [h3, hs]

/-- C42, derivatives in the second variable. -/
theorem C42_moments_dy {V : Type} (near : V → V → Bool) (corner : Nat → Nat → V) (P M : Nat) (hP : 0 < P)
    (E : MomentEnv) (junkE junkT : Nat → Nat → ℝ) (p np : Nat) (hx : Distinct (E.pts np) np) :
    ∃ t : Mesh.Tree ℝ, initElementTree near corner P M = some t ∧ ∀ l d r, l + d + r = M → ∀ a, IsNode P l a →
    ∃ L, clusterElements t a = some L ∧ L.length = 4 ^ (r + d) ∧ ∀ k b, L[k]? = some b →
      ∀ i < np, ∀ j < np, ∀ ix ≤ p, ∀ iy ≤ p,
      clusterBasis (np * np) ((p + 1) * (p + 1) * 4 ^ r) (momentDy E p (M - r) r np)
        (computeTransferMatrices E.pts junkE junkT np) d (i * np + j) ((p + 1) * (p + 1) * k + (iy * (p + 1) + ix)) =
      ∑ q ∈ range (E.GL (gaussIndex np p)).size, ∑ q' ∈ range (E.GL (gaussIndex np p)).size,
        let Q := E.GL (gaussIndex np p)
        let y := inCluster t a b (Q.xi q, Q.xi q')
        Q.w q * Q.w q' * (lagrange (E.pts np) np i y.1 * lagrange (E.pts np) np j y.2) *
          (B p ix (Q.xi q) * dB p iy (Q.xi q')) := by
  obtain ⟨t, h1, h2⟩ := cluster_order (K := ℝ) near corner P M hP
  refine ⟨t, h1, ?_⟩
  intro l d r hldr a ha
  obtain ⟨L, hL, hlen, h⟩ := h2 l (r + d) (by omega) a ha
  refine ⟨L, hL, hlen, ?_⟩
  intro k b hk i hi j hj ix hix iy hiy
  obtain ⟨hk4, hh, h3⟩ := h k b hk
  unfold momentDy moment1D moment1DDerivative
  rw [moments_general E junkE junkT _ _ _ (B p) (dB p) _ _ p r np (phi_add E.buf p) (phiDx_add E.buf p) hx d i j k ix iy
    hi hj hk4 hix hiy]
  have hpos : Real.sqrt (1 / ((2 ^ r : ℕ) : ℝ) * (1 / ((2 ^ (M - r) : ℕ) : ℝ))) ≠ 0 := by
    rw [Real.sqrt_ne_zero']; positivity
  have hs : ∀ q q' : ℝ, q * Real.sqrt (1 / ((2 ^ r : ℕ) : ℝ) * (1 / ((2 ^ (M - r) : ℕ) : ℝ))) *
      (q' / Real.sqrt (1 / ((2 ^ r : ℕ) : ℝ) * (1 / ((2 ^ (M - r) : ℕ) : ℝ)))) = q * q' := by
    intro q q'
    generalize Real.sqrt (1 / ((2 ^ r : ℕ) : ℝ) * (1 / ((2 ^ (M - r) : ℕ) : ℝ))) = s at hpos ⊢
    field_simp
  refine sum_congr rfl fun q _ => sum_congr rfl fun q' _ => ?_
  simp only [h3, hs]

theorem gaussIndex_degree (np p : Nat) (h : 0 < np) : np - 1 + p ≤ 2 * gaussIndex np p + 1 := by
  unfold gaussIndex; omega

theorem affine_poly (x : Nat → ℝ) (np : Nat) (hx : Distinct x np) (i : Nat) (hi : i < np) (o s : ℝ) :
    ∃ q : Polynomial ℝ, q.natDegree ≤ np - 1 ∧ ∀ u, q.eval u = lagrange x np i ((o + u) / s) := by
  have hinj : Set.InjOn x (range np : Finset ℕ) := by
    intro a ha b hb h
    exact hx a (by simpa using ha) b (by simpa using hb) h
  refine ⟨(Lagrange.basis (range np) x i).comp (Polynomial.C (1 / s) * (Polynomial.C o + Polynomial.X)), ?_, ?_⟩
  · have h1 : ((Lagrange.basis (range np) x i).comp
        (Polynomial.C (1 / s) * (Polynomial.C o + Polynomial.X))).natDegree ≤ (np - 1) * 1 := by
      refine le_trans (Polynomial.natDegree_comp_le (p := Lagrange.basis (range np) x i)
        (q := Polynomial.C (1 / s) * (Polynomial.C o + Polynomial.X))) (Nat.mul_le_mul ?_ ?_)
      · refine Polynomial.natDegree_le_of_degree_le ?_
        rw [Lagrange.degree_basis hinj (mem_range.mpr hi), card_range]
      · refine le_trans (Polynomial.natDegree_C_mul_le _ _) ?_
        rw [Polynomial.natDegree_C_add]
        exact Polynomial.natDegree_X_le
    omega
  · intro u
    rw [Polynomial.eval_comp, lagrange_eval]
    simp only [Polynomial.eval_mul, Polynomial.eval_C, Polynomial.eval_add, Polynomial.eval_X]
    congr 1
    ring

theorem bernstein_natDegree (p i : Nat) : (bernsteinPolynomial ℝ p i).natDegree ≤ p := by
  by_cases hi : i ≤ p
  · unfold bernsteinPolynomial
    have e1 : ((p.choose i : Polynomial ℝ) * Polynomial.X ^ i).natDegree ≤ i := by
      rw [← Polynomial.C_eq_natCast]
      exact Polynomial.natDegree_C_mul_X_pow_le _ _
    have e2 : ((1 - Polynomial.X : Polynomial ℝ) ^ (p - i)).natDegree ≤ (p - i) * 1 := by
      refine Polynomial.natDegree_pow_le_of_le _ ?_
      exact le_trans (Polynomial.natDegree_sub_le _ _) (by simp)
    refine le_trans Polynomial.natDegree_mul_le ?_
    omega
  · rw [bernsteinPolynomial.eq_zero_of_lt ℝ (by omega)]; simp

/-- C42: the quadrature rule chosen for the moments is sufficient: if rule number `n` is a Gauss rule with `n + 1` points
(exact up to degree `2 n + 1`), all moments are the exact integrals over the element. -/
theorem C42_exact {V : Type} (near : V → V → Bool) (corner : Nat → Nat → V) (P M : Nat) (hP : 0 < P) (E : MomentEnv)
    (junkE junkT : Nat → Nat → ℝ) (p np : Nat) (hx : Distinct (E.pts np) np) (hG : ∀ n, ExactTo (E.GL n) (2 * n + 1)) :
    ∃ t : Mesh.Tree ℝ, initElementTree near corner P M = some t ∧ ∀ l d r, l + d + r = M → ∀ a, IsNode P l a →
    ∃ L, clusterElements t a = some L ∧ L.length = 4 ^ (r + d) ∧ ∀ k b, L[k]? = some b →
      ∀ i < np, ∀ j < np, ∀ ix ≤ p, ∀ iy ≤ p,
      clusterBasis (np * np) ((p + 1) * (p + 1) * 4 ^ r) (moment E p (M - r) r np)
        (computeTransferMatrices E.pts junkE junkT np) d (i * np + j) ((p + 1) * (p + 1) * k + (iy * (p + 1) + ix)) =
      getH t b * ∫ x in (0:ℝ)..1, ∫ y in (0:ℝ)..1,
        lagrange (E.pts np) np i (inCluster t a b (x, y)).1 * lagrange (E.pts np) np j (inCluster t a b (x, y)).2 *
          (B p ix x * B p iy y) := by
  obtain ⟨t, h1, h2⟩ := cluster_order (K := ℝ) near corner P M hP
  obtain ⟨t', h1', h3⟩ := C42_moments near corner P M hP E junkE junkT p np hx
  obtain rfl : t = t' := Option.some.inj (h1.symm.trans h1')
  refine ⟨t, h1, ?_⟩
  intro l d r hldr a ha
  obtain ⟨L, hL, hlen, h⟩ := h2 l (r + d) (by omega) a ha
  obtain ⟨L', hL', _, h'⟩ := h3 l d r hldr a ha
  obtain rfl : L = L' := Option.some.inj (hL.symm.trans hL')
  refine ⟨L, hL, hlen, ?_⟩
  intro k b hk i hi j hj ix hix iy hiy
  obtain ⟨hk4, hh, h4⟩ := h k b hk
  rw [h' k b hk i hi j hj ix hix iy hiy]
  congr 1
  simp only [h4]
  have one : ∀ (i : Nat) (_ : i < np) (o : ℝ) (m : Nat), ∑ q ∈ range (E.GL (gaussIndex np p)).size,
      (E.GL (gaussIndex np p)).w q * (lagrange (E.pts np) np i ((o + (E.GL (gaussIndex np p)).xi q) / 2 ^ (r + d)) *
        B p m ((E.GL (gaussIndex np p)).xi q)) =
      ∫ x in (0:ℝ)..1, lagrange (E.pts np) np i ((o + x) / 2 ^ (r + d)) * B p m x := by
    intro i hi o m
    obtain ⟨q, hq1, hq2⟩ := affine_poly (E.pts np) np hx i hi o (2 ^ (r + d))
    have hdeg : (q * bernsteinPolynomial ℝ p m).natDegree ≤ 2 * gaussIndex np p + 1 := by
      refine le_trans Polynomial.natDegree_mul_le ?_
      have := bernstein_natDegree p m
      have := gaussIndex_degree np p (by omega)
      omega
    have := hG (gaussIndex np p) _ hdeg
    simp only [Polynomial.eval_mul, hq2, ← bern_eq_poly] at this
    exact this
  have e1 : ∀ x : ℝ, ∫ y in (0:ℝ)..1, lagrange (E.pts np) np i ((mx k + x) / 2 ^ (r + d)) *
      lagrange (E.pts np) np j ((my k + y) / 2 ^ (r + d)) * (B p ix x * B p iy y) =
      (lagrange (E.pts np) np i ((mx k + x) / 2 ^ (r + d)) * B p ix x) *
        ∫ y in (0:ℝ)..1, lagrange (E.pts np) np j ((my k + y) / 2 ^ (r + d)) * B p iy y := by
    intro x
    rw [← intervalIntegral.integral_const_mul]
    refine intervalIntegral.integral_congr fun y _ => ?_
    ring
  simp only [e1]
  rw [intervalIntegral.integral_mul_const, ← one i hi, ← one j hj, sum_mul_sum]
  refine sum_congr rfl fun q _ => sum_congr rfl fun q' _ => ?_
  ring

/-- Non-vacuity: exact rules of every degree exist. -/
theorem exact_rule_exists (D : Nat) : ∃ Q : Quad1 ℝ, ExactTo Q D := by
  have hx : Distinct (fun k => (k : ℝ)) (D + 1) := fun i _ j _ h => Nat.cast_injective (R := ℝ) h
  refine ⟨⟨D + 1, fun k => ∫ x in (0:ℝ)..1, lagrange (fun k => (k : ℝ)) (D + 1) k x, fun k => k⟩, ?_⟩
  intro f hf
  have hdeg : f.degree < (D + 1 : ℕ) :=
    lt_of_le_of_lt Polynomial.degree_le_natDegree (by exact_mod_cast (by omega : f.natDegree < D + 1))
  have h : ∀ x, f.eval x = ∑ k ∈ range (D + 1), f.eval (k : ℝ) * lagrange (fun k => (k : ℝ)) (D + 1) k x := fun x =>
    (lagrange_reproduce (fun k => (k : ℝ)) (D + 1) hx f hdeg x).symm
  have hc : ∀ k, Continuous (lagrange (fun k => (k : ℝ)) (D + 1) k) := by
    intro k
    have : lagrange (fun k => (k : ℝ)) (D + 1) k = fun t => (Lagrange.basis (range (D + 1)) (fun k => (k : ℝ)) k).eval t := by
      funext t; rw [lagrange_eval]
    rw [this]
    fun_prop
  rw [intervalIntegral.integral_congr (g := fun x => ∑ k ∈ range (D + 1), f.eval (k : ℝ) *
    lagrange (fun k => (k : ℝ)) (D + 1) k x) fun x _ => h x, intervalIntegral.integral_finsetSum]
  · refine sum_congr rfl fun k _ => ?_
    rw [intervalIntegral.integral_const_mul, mul_comm]
  · intro k _
    exact ((hc k).const_mul _).intervalIntegrable _ _

/-- Non-vacuity of the moment theorems: Chebyshev points, exact rules, six patches, three refinements; the first element
of cluster `(5, [2])`. -/
example : ∃ (E : MomentEnv) (t : Mesh.Tree ℝ), initElementTree (fun (a b : Nat) => a == b) (fun i j => i + j) 6 3 = some t ∧
    ∃ L b, clusterElements t (5, [2]) = some L ∧ L[0]? = some b ∧
      clusterBasis (9 * 9) (3 * 3 * 4 ^ 1) (moment E 2 2 1 9) (computeTransferMatrices E.pts (fun _ _ => 0) (fun _ _ => 0) 9) 1
        (3 * 9 + 4) (3 * 3 * 0 + (1 * 3 + 2)) =
      getH t b * ∫ x in (0:ℝ)..1, ∫ y in (0:ℝ)..1, lagrange (E.pts 9) 9 3 (inCluster t (5, [2]) b (x, y)).1 *
        lagrange (E.pts 9) 9 4 (inCluster t (5, [2]) b (x, y)).2 * (B 2 2 x * B 2 1 y) := by
  choose G hGL using fun n => exact_rule_exists (2 * n + 1)
  obtain ⟨t, h1, h2⟩ := C42_exact (fun (a b : Nat) => a == b) (fun i j => i + j) 6 3 (by omega)
    ⟨chebychevRoots, fun _ _ => 0, fun _ _ => 0, fun _ => 0, G⟩ (fun _ _ => 0) (fun _ _ => 0) 2 9 (C40_chebyshev 9).2.2 hGL
  obtain ⟨L, hL, hlen, h3⟩ := h2 1 1 1 (by omega) (5, [2]) ⟨by norm_num, rfl, by decide⟩
  obtain ⟨b, hb⟩ : ∃ b, L[0]? = some b := ⟨L[0], List.getElem?_eq_getElem (by rw [hlen]; norm_num)⟩
  exact ⟨_, t, h1, L, b, hL, hb, h3 0 b hb 3 (by omega) 4 (by omega) 2 (by omega) 1 (by omega)⟩

end Props
end Bembel
