import Verif.Props.HomogenisedEval
import Verif.Lemmas.PeriodicHarmonic
import Verif.Lemmas.GaussNodes
/-!
# Property theorems C65, C66: uniqueness and symmetry of the homogenised kernel
-/

namespace Bembel.Props
open Spec Sph Homog Finset H2

/-! ## linear independence of the solid harmonics -/

theorem D_pos (m : Nat) : 0 < legendreDeriv m m 0 := by
  induction m with
  | zero => rw [D_zero_zero]; norm_num
  | succ m ih => rw [D_diag]; positivity

theorem solidPoly_dz (m k : Nat) (x : V3) : fderiv ℝ (solidPoly m (k + 1)) x (sb 2) = (2 * m + k + 1) * solidPoly m k x :=
  (solidPoly_solid m k).dz x

theorem solidPoly_diff (m k : Nat) (x : V3) : DifferentiableAt ℝ (solidPoly m k) x := by
  obtain ⟨_, h⟩ := solidPoly_harmonic m k
  exact h.smooth.differentiable (by norm_num) x

theorem solid_independent (N : Nat) (a : Nat → Nat → ℝ) (h : ∀ x, ∑ n ∈ range (N + 1), ∑ m ∈ range (n + 1), a n m * solidPoly m (n - m) x = 0) :
    ∀ n ≤ N, ∀ m ≤ n, a n m = 0 := by
  induction N generalizing a with
  | zero =>
    intro n hn m hm
    obtain rfl : n = 0 := by omega
    obtain rfl : m = 0 := by omega
    have := h 0
    simp only [zero_add, sum_range_one] at this
    have e : solidPoly 0 (0 - 0) 0 = 1 := by
      show legendreDeriv 0 0 0 * cr _ _ 0 = 1
      rw [D_zero_zero, cr_zero, mul_one]
    rwa [e, mul_one] at this
  | succ N ih =>
    have hdz : ∀ x, ∑ n ∈ range (N + 1), ∑ m ∈ range (n + 1), (a (n + 1) m * (n + 1 + m)) * solidPoly m (n - m) x = 0 := by
      intro x
      have hd : HasFDerivAt (fun x => ∑ n ∈ range (N + 1 + 1), ∑ m ∈ range (n + 1), a n m * solidPoly m (n - m) x)
          (∑ n ∈ range (N + 1 + 1), ∑ m ∈ range (n + 1), a n m • fderiv ℝ (solidPoly m (n - m)) x) x :=
        HasFDerivAt.fun_sum fun n _ => HasFDerivAt.fun_sum fun m _ => (solidPoly_diff m (n - m) x).hasFDerivAt.const_mul _
      have h0 : HasFDerivAt (fun x => ∑ n ∈ range (N + 1 + 1), ∑ m ∈ range (n + 1), a n m * solidPoly m (n - m) x) (0 : V3 →L[ℝ] ℝ) x := by
        rw [funext h]; exact hasFDerivAt_const _ _
      have e := congrArg (fun L : V3 →L[ℝ] ℝ => L (sb 2)) (hd.unique h0)
      simp only [_root_.sum_apply, _root_.smul_apply, smul_eq_mul, _root_.zero_apply] at e
      rw [sum_range_succ'] at e
      simp only [zero_add, sum_range_one, Nat.sub_zero] at e
      rw [(solidPoly_zero 0).dz, mul_zero, add_zero] at e
      rw [← e]
      refine sum_congr rfl fun n _ => ?_
      rw [sum_range_succ _ (n + 1), Nat.sub_self, (solidPoly_zero (n + 1)).dz, mul_zero, add_zero]
      refine sum_congr rfl fun m hm => ?_
      have hm := mem_range.1 hm
      rw [show n + 1 - m = n - m + 1 by omega, solidPoly_dz]
      have : ((n - m : Nat) : ℝ) = n - m := by push_cast [show m ≤ n by omega]; ring
      rw [this]
      ring
    have hoff := ih _ hdz
    have hoff' : ∀ n ≤ N + 1, ∀ m < n, a n m = 0 := by
      intro n hn m hm
      obtain ⟨k, rfl⟩ : ∃ k, n = k + 1 := ⟨n - 1, by omega⟩
      have := hoff k (by omega) m (by omega)
      have hp : (k : ℝ) + 1 + m ≠ 0 := by positivity
      exact (mul_eq_zero.1 this).resolve_right hp
    let P : Polynomial ℝ := ∑ n ∈ range (N + 1 + 1), Polynomial.C (a n n * legendreDeriv n n 0) * Polynomial.X ^ n
    have hP : P = 0 := by
      refine Polynomial.funext fun t => ?_
      have := h !₂[t, 0, 0]
      rw [Polynomial.eval_zero, ← this]
      simp only [P, Polynomial.eval_finsetSum, Polynomial.eval_mul, Polynomial.eval_C, Polynomial.eval_pow, Polynomial.eval_X]
      refine sum_congr rfl fun n hn => ?_
      have hn := mem_range.1 hn
      rw [sum_range_succ, Nat.sub_self, sum_eq_zero (s := range n) fun m hm => by
        rw [hoff' n (by omega) m (mem_range.1 hm), zero_mul], zero_add]
      have hc : cr t 0 n = t ^ n := by unfold cr; simp [← Complex.ofReal_pow]
      simp only [solidPoly]
      rw [mul_assoc]
      congr 2
      exact hc.symm
    intro n hn m hm
    rcases Nat.lt_or_ge m n with h1 | h1
    · exact hoff' n hn m h1
    · obtain rfl : m = n := by omega
      have := congrArg (fun p : Polynomial ℝ => p.coeff m) hP
      simp only [P, Polynomial.finsetSum_coeff, Polynomial.coeff_C_mul, Polynomial.coeff_X_pow, Polynomial.coeff_zero] at this
      rw [sum_eq_single m (fun b _ hb => by rw [if_neg (Ne.symm hb), mul_zero]) (fun hb => absurd (mem_range.2 (by omega)) hb), if_pos rfl, mul_one] at this
      exact (mul_eq_zero.1 this).resolve_right (D_pos m).ne'

/-! ## the expansion as a polynomial -/

/-- The expansion in the unknowns of the system as a polynomial. -/
noncomputable def halfPoly (deg : Nat) (h : Nat → ℝ) (x : V3) : ℝ :=
  ∑ n ∈ range deg, ∑ m ∈ range (n + 2), h (tri (n + 1) - 1 + m) * (fac m * (sphericalNorm (n + 1) m * solidPoly m (n + 1 - m) x))

theorem half_poly (deg : Nat) (h : Nat → ℝ) (x : V3) (hx : x ≠ 0) : half deg h x = halfPoly deg h x := by
  unfold half halfPoly
  refine sum_congr rfl fun n _ => sum_congr rfl fun m hm => ?_
  have hm := mem_range.1 hm
  rw [← harmonicPos_solid (n + 1) m (by omega) x hx]; rfl

theorem half_poly_nhds (deg : Nat) (h : Nat → ℝ) (x : V3) (hx : x ≠ 0) : half deg h =ᶠ[nhds x] halfPoly deg h := by
  filter_upwards [isOpen_ne.mem_nhds hx] with z hz
  exact half_poly deg h z hz

theorem halfPoly_mem (deg : Nat) (h : Nat → ℝ) : halfPoly deg h ∈ polySpace deg := by
  have : halfPoly deg h = ∑ n ∈ range deg, ∑ m ∈ range (n + 2), fun x => h (tri (n + 1) - 1 + m) * (fac m * (sphericalNorm (n + 1) m * solidPoly m (n + 1 - m) x)) := by
    funext x; simp only [halfPoly, Finset.sum_apply]
  rw [this]
  refine Submodule.sum_mem _ fun n hn => Submodule.sum_mem _ fun m hm => ?_
  have hn := mem_range.1 hn
  have hm := mem_range.1 hm
  refine polySpace_mono (show n + 1 ≤ deg by omega) ?_
  have := solidPoly_mem m (n + 1 - m)
  rw [show m + (n + 1 - m) = n + 1 by omega] at this
  exact const_mul_mem _ (const_mul_mem _ (const_mul_mem _ this))

theorem halfPoly_lap (deg : Nat) (h : Nat → ℝ) (x : V3) : Laplacian.laplacian (halfPoly deg h) x = 0 := by
  have := sum_lap (range deg) (fun n x => ∑ m ∈ range (n + 2), h (tri (n + 1) - 1 + m) * (fac m * (sphericalNorm (n + 1) m * solidPoly m (n + 1 - m) x)))
    (fun _ => 0) x (fun n _ => by
      have := sum_lap (range (n + 2)) (fun m x => h (tri (n + 1) - 1 + m) * (fac m * (sphericalNorm (n + 1) m * solidPoly m (n + 1 - m) x)))
        (fun _ => 0) x (fun m _ => by
          obtain ⟨_, hU⟩ := solidPoly_harmonic m (n + 1 - m)
          have := ((hU.const_mul (sphericalNorm (n + 1) m)).const_mul (fac m)).const_mul (h (tri (n + 1) - 1 + m))
          exact ⟨this.smooth.contDiffAt, this.lap x⟩)
      exact ⟨this.1, this.2.trans (by simp)⟩)
  exact this.2.trans (by simp)

theorem halfPoly_zero (deg : Nat) (h : Nat → ℝ) : halfPoly deg h 0 = 0 := by
  unfold halfPoly
  refine sum_eq_zero fun n _ => sum_eq_zero fun m hm => ?_
  have hm := mem_range.1 hm
  obtain ⟨_, hU⟩ := solidPoly_harmonic m (n + 1 - m)
  have := hU.euler 0
  rw [map_zero, show m + (n + 1 - m) = n + 1 by omega] at this
  have hn : ((n + 1 : Nat) : ℝ) ≠ 0 := by positivity
  rw [(mul_eq_zero.1 this.symm).resolve_left hn]; simp

theorem halfPoly_const (deg : Nat) (h : Nat → ℝ) (hc : ∀ x y, halfPoly deg h x = halfPoly deg h y) (n m : Nat) (h1 : 1 ≤ n) (h2 : n ≤ deg) (hm : m ≤ n) :
    h (tri n - 1 + m) = 0 := by
  have hz : ∀ x, halfPoly deg h x = 0 := fun x => (hc x 0).trans (halfPoly_zero deg h)
  have := solid_independent deg (fun n m => if n = 0 then 0 else h (tri n - 1 + m) * (fac m * sphericalNorm n m)) (by
    intro x
    rw [sum_range_succ']
    simp only [if_true, zero_mul, sum_const_zero, add_zero, Nat.add_eq_zero_iff, one_ne_zero, and_false, if_false]
    rw [← hz x]
    exact sum_congr rfl fun n _ => sum_congr rfl fun m _ => by ring) n h2 m hm
  simp only [show n ≠ 0 by omega, if_false] at this
  have hf : fac m ≠ 0 := by unfold fac; split <;> norm_num
  exact (mul_eq_zero.1 this).resolve_right (mul_ne_zero hf (sphericalNorm_pos n m).ne')

/-! ## from the points to the faces -/

theorem line_zero2 {N : Nat} {f g : V3 → ℝ} (hf : f ∈ polySpace N) (hg : g ∈ polySpace N) (x y v : V3) (S : Finset ℝ) (hS : N < S.card)
    (h : ∀ t ∈ S, f (x + t • v) = g (y + t • v)) (t : ℝ) : f (x + t • v) = g (y + t • v) := by
  obtain ⟨p, p1, p2⟩ := poly_line hf x v
  obtain ⟨q, q1, q2⟩ := poly_line hg y v
  have : p - q = 0 := Polynomial.eq_zero_of_natDegree_lt_card_of_eval_eq_zero' _ S (fun s hs => by
    rw [Polynomial.eval_sub, ← p2, ← q2, h s hs, sub_self]) (lt_of_le_of_lt ((Polynomial.natDegree_sub_le _ _).trans (max_le p1 q1)) hS)
  rw [p2, q2, sub_eq_zero.1 this]

/-- The directions tangential to a face. -/
def t1 : Fin 3 → Fin 3
  | 0 => 1
  | 1 => 0
  | 2 => 0

/-- The directions tangential to a face. -/
def t2 : Fin 3 → Fin 3
  | 0 => 2
  | 1 => 2
  | 2 => 1

theorem cubeFace_line (f : Fin 3) (u v : ℝ) : cubeFace f (u, v) = cubeFace f (0, v) + u • sb (t1 f) ∧ cubeFace f (u, v) = cubeFace f (u, 0) + v • sb (t2 f) := by
  constructor <;> · ext i; fin_cases f <;> fin_cases i <;> simp [cubeFace, t1, t2, sb_apply] <;> ring

theorem cubeFace_of (f : Fin 3) (x : V3) (hx : x f = -1 / 2) : x = cubeFace f (x (t1 f) + 1 / 2, x (t2 f) + 1 / 2) := by
  ext i; fin_cases f <;> fin_cases i <;> simp_all [cubeFace, t1, t2]

theorem face_zero {N : Nat} {f g : V3 → ℝ} (hf : f ∈ polySpace N) (hg : g ∈ polySpace N) (i : Fin 3) (S : Finset ℝ) (hS : N < S.card)
    (h : ∀ u ∈ S, ∀ v ∈ S, f (cubeFace i (u, v)) = g (cubeFace i (u, v) + sb i)) (x : V3) (hx : x i = -1 / 2) : f x = g (x + sb i) := by
  have a1 : ∀ v ∈ S, ∀ u, f (cubeFace i (u, v)) = g (cubeFace i (u, v) + sb i) := by
    intro v hv u
    rw [(cubeFace_line i u v).1, add_right_comm]
    refine line_zero2 hf hg _ _ _ S hS (fun t ht => ?_) u
    rw [add_right_comm, ← (cubeFace_line i t v).1]
    exact h t ht v hv
  have a2 : ∀ u v, f (cubeFace i (u, v)) = g (cubeFace i (u, v) + sb i) := by
    intro u v
    rw [(cubeFace_line i u v).2, add_right_comm]
    refine line_zero2 hf hg _ _ _ S hS (fun t ht => ?_) v
    rw [add_right_comm, ← (cubeFace_line i u t).2]
    exact a1 t ht u
  rw [cubeFace_of i x hx]
  exact a2 _ _

/-- An expansion without jumps at the points is zero. -/
theorem no_jump (deg : Nat) (h : Nat → ℝ) (S : Finset ℝ) (hS : deg < S.card)
    (hj : ∀ f : Fin 3, ∀ u ∈ S, ∀ v ∈ S, half deg h (cubeFace f (u, v)) = half deg h (cubeFace f (u, v) + axis f) ∧
      fderiv ℝ (half deg h) (cubeFace f (u, v)) (axis f) = fderiv ℝ (half deg h) (cubeFace f (u, v) + axis f) (axis f))
    (n m : Nat) (h1 : 1 ≤ n) (h2 : n ≤ deg) (hm : m ≤ n) : h (tri n - 1 + m) = 0 := by
  refine halfPoly_const deg h (periodic_poly _ (halfPoly_mem deg h) (halfPoly_lap deg h) (fun f x hx => ?_) (fun f x hx => ?_)) n m h1 h2 hm
  · refine face_zero (halfPoly_mem deg h) (halfPoly_mem deg h) f S hS (fun u hu v hv => ?_) x hx
    obtain ⟨o1, o2⟩ := off_face f (u, v)
    rw [← half_poly _ _ _ (off_ne_zero o1), (hj f u hu v hv).1, half_poly _ _ _ (off_ne_zero o2)]; rfl
  · refine face_zero (poly_fderiv (halfPoly_mem deg h) f) (poly_fderiv (halfPoly_mem deg h) f) f S hS (fun u hu v hv => ?_) x hx
    obtain ⟨o1, o2⟩ := off_face f (u, v)
    have := (hj f u hu v hv).2
    rw [(half_poly_nhds deg h _ (off_ne_zero o1)).fderiv_eq, (half_poly_nhds deg h _ (off_ne_zero o2)).fderiv_eq] at this
    exact this

/-! ## uniqueness of the minimiser -/

/-- `c` has the smallest periodicity error. -/
def Minimal (deg : Nat) (Q : Cubature ℝ) (c : Nat → Int → ℝ) : Prop :=
  SymmetricUpTo deg c ∧ ∀ c', SymmetricUpTo deg c' →
    periodicityError mSquare Q.xi (expandedKernel deg c) ≤ periodicityError mSquare Q.xi (expandedKernel deg c')

theorem ls_rows (R C : Nat) (A : Nat → Nat → ℝ) (b s s' : Nat → ℝ)
    (e0 : ∑ i ∈ range R, (∑ j ∈ range C, A i j * s j - b i) ^ 2 ≤ ∑ i ∈ range R, (∑ j ∈ range C, A i j * ((s j + s' j) / 2) - b i) ^ 2)
    (e1 : ∑ i ∈ range R, (∑ j ∈ range C, A i j * s' j - b i) ^ 2 ≤ ∑ i ∈ range R, (∑ j ∈ range C, A i j * ((s j + s' j) / 2) - b i) ^ 2)
    (i : Nat) (hi : i < R) : ∑ j ∈ range C, A i j * (s j - s' j) = 0 := by
  have key : ∑ i ∈ range R, (∑ j ∈ range C, A i j * (s j - s' j)) ^ 2 ≤ 0 := by
    have : ∀ i, (∑ j ∈ range C, A i j * (s j - s' j)) ^ 2 =
        2 * (∑ j ∈ range C, A i j * s j - b i) ^ 2 + 2 * (∑ j ∈ range C, A i j * s' j - b i) ^ 2 -
          4 * (∑ j ∈ range C, A i j * ((s j + s' j) / 2) - b i) ^ 2 := by
      intro i
      have x1 : ∑ j ∈ range C, A i j * (s j - s' j) = ∑ j ∈ range C, A i j * s j - ∑ j ∈ range C, A i j * s' j := by
        rw [← sum_sub_distrib]; exact sum_congr rfl fun j _ => by ring
      have x2 : ∑ j ∈ range C, A i j * ((s j + s' j) / 2) = (∑ j ∈ range C, A i j * s j + ∑ j ∈ range C, A i j * s' j) / 2 := by
        rw [← sum_add_distrib, sum_div]; exact sum_congr rfl fun j _ => by ring
      rw [x1, x2]; ring
    simp only [this, sum_add_distrib, sum_sub_distrib, ← mul_sum]
    linarith
  have := (sum_eq_zero_iff_of_nonneg fun j _ => sq_nonneg _).1 (le_antisymm key (sum_nonneg fun j _ => sq_nonneg _)) i (mem_range.2 hi)
  exact (pow_eq_zero_iff (by norm_num)).1 this

theorem minimal_unique (deg : Nat) (hd : 1 ≤ deg) (h20 : deg ≤ 20) (q : Quad1 ℝ) (hs : q.size = 21) (hex : ExactTo q 41)
    (c c' : Nat → Int → ℝ) (hc : Minimal deg (tensorRule q) c) (hc' : Minimal deg (tensorRule q) c') (n : Nat) (h1 : 1 ≤ n) (h2 : n ≤ deg)
    (m : Int) (m1 : -n ≤ m) (m2 : m ≤ n) : c n m = c' n m := by
  classical
  set Q := tensorRule q with hQ
  obtain ⟨A, -, hA⟩ := systemMatrix_eq (fun _ _ _ => ⟨(fun _ => 0, fun _ => 0), (0, 0), fun _ => 0, (fun _ => 0, fun _ => 0, fun _ => 0), fun _ => 0, fun _ _ => 0⟩)
    (fun _ _ => 0) Q deg hd
  obtain ⟨s, hs1⟩ := exists_half deg c
  obtain ⟨s', hs2⟩ := exists_half deg c'
  have hmid : SymmetricUpTo deg (fun n m => (c n m + c' n m) / 2) := fun n hn m m1 m2 => by
    simp only [hc.1 n hn m m1 m2, hc'.1 n hn m m1 m2]
  have r0 := residual deg Q (fun _ => 0) A hA c s hc.1 hs1
  have r1 := residual deg Q (fun _ => 0) A hA c' s' hc'.1 hs2
  have r2 := residual deg Q (fun _ => 0) A hA _ (fun j => (s j + s' j) / 2) hmid (fun n m a1 a2 a3 => by simp only [hs1 n m a1 a2 a3, hs2 n m a1 a2 a3])
  have e0 := hc.2 _ hmid
  have e1 := hc'.2 _ hmid
  rw [r0, r2] at e0
  rw [r1, r2] at e1
  have hrow := ls_rows _ _ A _ s s' e0 e1
  have hinj := exact_injective q 21 hs (by norm_num) hex
  have hcard : ((range 21).image q.xi).card = 21 := by rw [card_image_of_injOn hinj, card_range]
  have hz := no_jump deg (fun j => s j - s' j) ((range 21).image q.xi) (by omega) (by
    intro f u hu v hv
    obtain ⟨a, ha, rfl⟩ := mem_image.1 hu
    obtain ⟨b, hb, rfl⟩ := mem_image.1 hv
    have ha := mem_range.1 ha
    have hb := mem_range.1 hb
    have hk : Q.xi (a * 21 + b) = (q.xi a, q.xi b) := by
      show (q.xi ((a * 21 + b) / q.size), q.xi ((a * 21 + b) % q.size)) = _
      rw [hs, show (a * 21 + b) / 21 = a by omega, show (a * 21 + b) % 21 = b by omega]
    have hM : mSquare = 441 := rfl
    have hlt : a * 21 + b < mSquare := by omega
    obtain ⟨j1, j2⟩ := rows_jump deg Q A f (a * 21 + b) (hA _ hlt f) (fun j => s j - s' j)
    have hf := f.isLt
    have b1 : a * 21 + b + 2 * f.val * mSquare < 6 * mSquare := by rw [hM]; omega
    have b2 : a * 21 + b + (2 * f.val + 1) * mSquare < 6 * mSquare := by rw [hM]; omega
    have k1 := j1.symm.trans (hrow _ b1)
    have k2 := j2.symm.trans (hrow _ b2)
    rw [hk] at k1 k2
    obtain ⟨o1, o2⟩ := off_face f (q.xi a, q.xi b)
    refine ⟨sub_eq_zero.1 k1, ?_⟩
    rw [(half_fderiv deg _ _ (off_ne_zero o1) _).2, (half_fderiv deg _ _ (off_ne_zero o2) _).2]
    exact sub_eq_zero.1 k2)
  have hfin : ∀ k : Nat, k ≤ n → c n k = c' n k := by
    intro k hk
    have := hz n k h1 h2 hk
    simp only [hs1 n k h1 h2 hk, hs2 n k h1 h2 hk] at this
    linarith
  rcases le_total 0 m with h0 | h0
  · lift m to Nat using h0
    exact hfin m (by omega)
  · have x1 := hc.1 n h2 m m1 m2
    have x2 := hc'.1 n h2 m m1 m2
    rw [← x1, ← x2]
    obtain ⟨k, hk⟩ : ∃ k : Nat, -m = k := ⟨(-m).toNat, by omega⟩
    rw [hk]
    exact hfin k (by omega)

/-! ## symmetry -/

theorem D_parity (m k : Nat) (t : ℝ) : legendreDeriv (m + k) m (-t) = (-1) ^ k * legendreDeriv (m + k) m t := by
  induction k using Nat.strong_induction_on with
  | _ k ih =>
    match k, ih with
    | 0, _ => rw [Nat.add_zero, D_mm, D_mm m t]; ring
    | 1, _ => rw [D_sub, D_sub, D_mm, D_mm m t]; ring
    | k + 2, ih =>
      have h1 := ih (k + 1) (by omega)
      have h0 := ih k (by omega)
      have a := D_rec (m + k) m t
      have b := D_rec (m + k) m (-t)
      rw [show m + k + 2 = m + (k + 2) by omega, show m + k + 1 = m + (k + 1) by omega] at a b
      have hk : (k : ℝ) + 2 ≠ 0 := by positivity
      push_cast at a b
      apply mul_left_cancel₀ hk
      rw [h1, h0] at b
      have e1 : (-1 : ℝ) ^ (k + 1) = -(-1) ^ k := by ring
      have e2 : (-1 : ℝ) ^ (k + 2) = (-1) ^ k := by ring
      rw [e1] at b
      rw [e2]
      linear_combination b - (-1) ^ k * a

theorem harmonic_neg (n : Nat) (m : Int) (m1 : -n ≤ m) (m2 : m ≤ n) (y : V3) : (harmonic n m (-y)).re = (-1) ^ n * (harmonic n m y).re := by
  rw [harmonic_re, harmonic_re]
  obtain ⟨k, hk⟩ : ∃ k, n = m.natAbs + k := ⟨n - m.natAbs, by omega⟩
  set j := m.natAbs
  subst hk
  have : harmonicPos (j + k) j (-y) = ((-1) ^ (j + k) : ℝ) * harmonicPos (j + k) j y := by
    unfold harmonicPos
    simp only [PiLp.neg_apply]
    rw [D_parity, show (((-y 0 : ℝ) : ℂ) + ((-y 1 : ℝ) : ℂ) * Complex.I) = (-1) * ((y 0 : ℂ) + y 1 * Complex.I) by push_cast; ring, mul_pow, pow_add]
    push_cast
    ring
  rw [this, Complex.re_ofReal_mul]

theorem expanded_neg (deg : Nat) (c : Nat → Int → ℝ) (x : V3) :
    expandedKernel deg (fun n m => (-1) ^ n * c n m) x = expandedKernel deg c (-x) := by
  unfold expandedKernel
  rw [← C65_modified, ← C65_modified, C65_modified_even]
  congr 1
  unfold solidExpansion
  refine sum_congr rfl fun n _ => sum_congr rfl fun m hm => ?_
  obtain ⟨m1, m2⟩ := mem_Icc.1 hm
  rw [norm_neg, smul_neg, harmonic_neg n m m1 m2]
  ring

theorem cubeFace_neg (f : Fin 3) (u : ℝ × ℝ) : -cubeFace f u = cubeFace f (1 - u.1, 1 - u.2) + axis f := by
  ext i; fin_cases f <;> fin_cases i <;> simp [cubeFace, axis] <;> ring

theorem error_neg (q : Quad1 ℝ) (hs : q.size = 21) (hex : ExactTo q 41) (F : V3 → ℝ) :
    periodicityError mSquare (tensorRule q).xi (fun x => F (-x)) = periodicityError mSquare (tensorRule q).xi F := by
  have hfd : ∀ x v, fderiv ℝ (fun x => F (-x)) x v = -fderiv ℝ F (-x) v := by
    intro x v
    have := (ContinuousLinearEquiv.neg ℝ (M := V3)).comp_right_fderiv (f := F) (x := x)
    rw [show (fun x => F (-x)) = F ∘ (ContinuousLinearEquiv.neg ℝ (M := V3)) from rfl, this, ContinuousLinearMap.comp_apply]
    show fderiv ℝ F (-x) (-v) = _
    rw [map_neg]
  have hsum : ∀ T : ℝ × ℝ → ℝ, ∑ k ∈ range mSquare, T ((tensorRule q).xi k) = ∑ a ∈ range 21, ∑ b ∈ range 21, T (q.xi a, q.xi b) := by
    intro T
    have := C46_sum q (fun _ x => T x)
    have e : (tensorRule q).size = mSquare := by show q.size * q.size = _; rw [hs]; rfl
    rw [e, hs] at this
    exact this
  unfold periodicityError
  refine sum_congr rfl fun f _ => ?_
  rw [hsum (fun u => (F (-cubeFace f u) - F (-(cubeFace f u + axis f))) ^ 2 +
    (fderiv ℝ (fun x => F (-x)) (cubeFace f u) (axis f) - fderiv ℝ (fun x => F (-x)) (cubeFace f u + axis f) (axis f)) ^ 2),
    hsum (fun u => (F (cubeFace f u) - F (cubeFace f u + axis f)) ^ 2 + (fderiv ℝ F (cubeFace f u) (axis f) - fderiv ℝ F (cubeFace f u + axis f) (axis f)) ^ 2)]
  have hrefl : ∀ T : ℝ → ℝ → ℝ, ∑ a ∈ range 21, ∑ b ∈ range 21, T (q.xi a) (q.xi b) = ∑ a ∈ range 21, ∑ b ∈ range 21, T (1 - q.xi a) (1 - q.xi b) := by
    intro T
    rw [← exact_reflect q 21 hs (by norm_num) hex (fun u => ∑ b ∈ range 21, T u (q.xi b))]
    refine sum_congr rfl fun a _ => ?_
    rw [← exact_reflect q 21 hs (by norm_num) hex (fun v => T (1 - q.xi a) v)]
  rw [hrefl (fun u v => (F (cubeFace f (u, v)) - F (cubeFace f (u, v) + axis f)) ^ 2 + (fderiv ℝ F (cubeFace f (u, v)) (axis f) - fderiv ℝ F (cubeFace f (u, v) + axis f) (axis f)) ^ 2)]
  refine sum_congr rfl fun a _ => sum_congr rfl fun b _ => ?_
  have e2 : -(cubeFace f (q.xi a, q.xi b) + axis f) = cubeFace f (1 - q.xi a, 1 - q.xi b) := by rw [neg_add, cubeFace_neg]; abel
  rw [hfd, hfd, e2, cubeFace_neg]
  ring

theorem minimal_odd (deg : Nat) (hd : 1 ≤ deg) (h20 : deg ≤ 20) (q : Quad1 ℝ) (hs : q.size = 21) (hex : ExactTo q 41)
    (c : Nat → Int → ℝ) (hc : Minimal deg (tensorRule q) c) (n : Nat) (ho : Odd n) (h2 : n ≤ deg)
    (m : Int) (m1 : -n ≤ m) (m2 : m ≤ n) : c n m = 0 := by
  have hc' : Minimal deg (tensorRule q) (fun n m => (-1) ^ n * c n m) := by
    refine ⟨fun n hn m m1 m2 => by simp only [hc.1 n hn m m1 m2], fun c'' h'' => ?_⟩
    rw [funext (expanded_neg deg c), error_neg q hs hex]
    exact hc.2 c'' h''
  have := minimal_unique deg hd h20 q hs hex c _ hc hc' n ho.pos h2 m m1 m2
  simp only [ho.neg_one_pow] at this
  linarith

/-! ## the computed coefficients -/

theorem rule_tensor (es : EigenSolver) (hes : SolverCorrect es) :
    ∃ q : Quad1 ℝ, gaussSquare es 20 20 = tensorRule q ∧ q.size = 21 ∧ ExactTo q 41 := by
  have e : gaussSquare es pointDegree pointDegree = tensorRule (gaussLegendreRule es (pointDegree + 1)) := (C46_select _ _ _ le_rfl).2
  have e2 : gaussLegendreRule es (pointDegree + 1) = gaussLegendreGeneric es (pointDegree + 1) := by
    simp only [gaussLegendreRule]; rfl
  rw [e2] at e
  exact ⟨_, e, rfl, C47_generic es (pointDegree + 1) (by omega) (hes _ _)⟩

theorem fit_facts (es : EigenSolver) (hes : SolverCorrect es) (J : Nat → Fin 3 → Bool → Fresh) (F : Fresh) (solve : Solver)
    (hsolve : ∀ r c A b, LeastSquares r c A b (solve r c A b)) (precision : ℝ) :
    ∃ cs q, getCoefficients es J F solve precision = some cs ∧ gaussSquare es 20 20 = tensorRule q ∧ q.size = 21 ∧ ExactTo q 41 ∧
      cs.length = (getDegree precision + 1) * (getDegree precision + 1) ∧ Minimal (getDegree precision) (tensorRule q) (coefficient cs) ∧
      (1 / 3) * ∑ f, ∑ k ∈ range 441, (gaussSquare es 20 20).w k *
        expandedKernel (getDegree precision - 1) (coefficient cs) (cubeFace f ((gaussSquare es 20 20).xi k)) = -1 / 24 := by
  obtain ⟨deg, cs, -, rfl, h1, h2, h3, h4, h5⟩ := C66_fit es J F solve hsolve precision
  obtain ⟨q, q1, q2, q3⟩ := rule_tensor es hes
  refine ⟨cs, q, h1, q1, q2, q3, h2, ⟨h3, ?_⟩, h5 hes⟩
  rw [q1] at h4
  exact h4

theorem degree_facts (p : ℝ) : 4 ≤ getDegree p ∧ getDegree p ≤ 12 ∧ Even (getDegree p) := by
  rcases getDegree_cases p with h | h | h <;> rw [h.1] <;> exact ⟨by omega, by omega, by decide⟩

theorem list_coefficients {N : Nat} {a b : List ℝ} (ha : a.length = (N + 1) * (N + 1)) (hb : b.length = (N + 1) * (N + 1))
    (h : ∀ n ≤ N, ∀ m : Int, -n ≤ m → m ≤ n → coefficient a n m = coefficient b n m) : a = b := by
  refine List.ext_getElem (ha.trans hb.symm) fun i hi hi' => ?_
  have hn : Nat.sqrt i ≤ N := by
    have : Nat.sqrt i < N + 1 := Nat.sqrt_lt.2 (by omega)
    omega
  have h1 := Nat.sqrt_le i
  have h2 := Nat.lt_succ_sqrt i
  set n := Nat.sqrt i with hnd
  have h2' : i < n * n + 2 * n + 1 := by
    have : n.succ * n.succ = n * n + 2 * n + 1 := by rw [Nat.succ_eq_add_one]; ring
    omega
  have := h n hn ((i : Int) - n * n - n) (by push_cast at *; nlinarith) (by zify at h2'; linarith)
  unfold coefficient at this
  rw [show ((n : Int) * n + n + ((i : Int) - n * n - n)).toNat = i by rw [show ((n : Int) * n + n + ((i : Int) - n * n - n)) = i by ring]; simp] at this
  simpa [List.getD_eq_getElem?_getD, hi, hi'] using this

/-- C66: the coefficients do not depend on the contents of fresh memory or on how the least squares problem is solved. -/
theorem C66_unique (es : EigenSolver) (hes : SolverCorrect es) (J J' : Nat → Fin 3 → Bool → Fresh) (F F' : Fresh) (solve solve' : Solver)
    (hsolve : ∀ r c A b, LeastSquares r c A b (solve r c A b)) (hsolve' : ∀ r c A b, LeastSquares r c A b (solve' r c A b)) (precision : ℝ) :
    getCoefficients es J F solve precision = getCoefficients es J' F' solve' precision := by
  obtain ⟨cs, q, a1, a2, a3, a4, a5, a6, a7⟩ := fit_facts es hes J F solve hsolve precision
  obtain ⟨cs', q', b1, b2, b3, b4, b5, b6, b7⟩ := fit_facts es hes J' F' solve' hsolve' precision
  obtain ⟨d1, d2, -⟩ := degree_facts precision
  have hw := (rule_facts es).2 hes
  set N := getDegree precision with hN
  rw [← b2, a2] at b6
  have hu := minimal_unique N (by omega) (by omega) q a3 a4 _ _ a6 b6
  rw [a1, b1]
  congr 1
  have hK : ∀ x, expandedKernel (N - 1) (coefficient cs) x - expandedKernel (N - 1) (coefficient cs') x =
      (coefficient cs 0 0 - coefficient cs' 0 0) * (0.5 / Real.sqrt Real.pi) := by
    intro x
    unfold expandedKernel
    rw [add_sub_add_left_eq_sub]
    unfold solidExpansion
    rw [sum_range_succ', sum_range_succ' _ (N - 1)]
    have e : ∀ n ∈ range (N - 1), ∑ m ∈ Icc (-((n + 1 : Nat) : Int)) (n + 1 : Nat), coefficient cs (n + 1) m * (‖x‖ ^ (n + 1) * (harmonic (n + 1) m ((1 / ‖x‖) • x)).re) =
        ∑ m ∈ Icc (-((n + 1 : Nat) : Int)) (n + 1 : Nat), coefficient cs' (n + 1) m * (‖x‖ ^ (n + 1) * (harmonic (n + 1) m ((1 / ‖x‖) • x)).re) := by
      intro n hn
      have hn := mem_range.1 hn
      refine sum_congr rfl fun m hm => ?_
      obtain ⟨m1, m2⟩ := mem_Icc.1 hm
      rw [hu (n + 1) (by omega) (by omega) m m1 m2]
    have a0 : ∀ c : Nat → Int → ℝ, ∑ m ∈ Icc (-((0 : Nat) : Int)) (0 : Nat), c 0 m * (‖x‖ ^ 0 * (harmonic 0 m ((1 / ‖x‖) • x)).re) = c 0 0 * (0.5 / Real.sqrt Real.pi) := by
      intro c
      rw [degree_sum 0 (c 0) (fun m m1 m2 => by rw [show m = 0 by omega, neg_zero]) x]
      simp [ss_zero, fac]
    rw [sum_congr rfl e, a0, a0]
    ring
  have h00 : coefficient cs 0 0 = coefficient cs' 0 0 := by
    have hsub : ∑ f : Fin 3, ∑ k ∈ range 441, (gaussSquare es 20 20).w k * expandedKernel (N - 1) (coefficient cs) (cubeFace f ((gaussSquare es 20 20).xi k)) -
        ∑ f : Fin 3, ∑ k ∈ range 441, (gaussSquare es 20 20).w k * expandedKernel (N - 1) (coefficient cs') (cubeFace f ((gaussSquare es 20 20).xi k)) = 0 := by
      linarith
    rw [← sum_sub_distrib] at hsub
    simp only [← sum_sub_distrib, ← mul_sub, hK, ← sum_mul] at hsub
    have hw' : ∑ k ∈ range 441, (gaussSquare es 20 20).w k = 1 := hw
    rw [hw'] at hsub
    simp only [sum_const, card_univ, Fintype.card_fin, one_mul, nsmul_eq_mul] at hsub
    have hpi : (0 : ℝ) < 0.5 / Real.sqrt Real.pi := div_pos (by norm_num) (Real.sqrt_pos.2 Real.pi_pos)
    have : (coefficient cs 0 0 - coefficient cs' 0 0) * (0.5 / Real.sqrt Real.pi) = 0 := by push_cast at hsub; linarith
    exact sub_eq_zero.1 ((mul_eq_zero.1 this).resolve_right hpi.ne')
  refine list_coefficients a5 b5 fun n hn m m1 m2 => ?_
  rcases Nat.eq_zero_or_pos n with h0 | h0
  · subst h0
    obtain rfl : m = 0 := by omega
    exact h00
  · exact hu n h0 hn m m1 m2

/-- C66: the coefficients of odd degree are zero. -/
theorem C66_odd (es : EigenSolver) (hes : SolverCorrect es) (J : Nat → Fin 3 → Bool → Fresh) (F : Fresh) (solve : Solver)
    (hsolve : ∀ r c A b, LeastSquares r c A b (solve r c A b)) (precision : ℝ) (cs : List ℝ)
    (h : getCoefficients es J F solve precision = some cs) (n : Nat) (ho : Odd n) (h2 : n ≤ getDegree precision) (m : Int) (m1 : -n ≤ m) (m2 : m ≤ n) :
    coefficient cs n m = 0 := by
  obtain ⟨cs', q, a1, a2, a3, a4, a5, a6, -⟩ := fit_facts es hes J F solve hsolve precision
  obtain rfl : cs' = cs := Option.some.inj (a1.symm.trans h)
  obtain ⟨d1, d2, -⟩ := degree_facts precision
  exact minimal_odd _ (by omega) (by omega) q a3 a4 _ a6 n ho h2 m m1 m2

/-- C65: with the computed coefficients the evaluated kernel is the documented one with the expansion truncated at degree `N - 1` (where `N` is
the degree of the fit), it is symmetric, its Laplacian is one away from the 27 centres, and its mean over the faces is `-1/24`. -/
theorem C65_computed (es : EigenSolver) (hes : SolverCorrect es) (J : Nat → Fin 3 → Bool → Fresh) (F : Fresh) (solve : Solver)
    (hsolve : ∀ r c A b, LeastSquares r c A b (solve r c A b)) (precision : ℝ) :
    ∃ cs, getCoefficients es J F solve precision = some cs ∧
      (∀ x y, evaluateKernel cs (getDegree precision) x y = some (expandedKernel (getDegree precision - 1) (coefficient cs) (x - y))) ∧
      (∀ x y, evaluateKernel cs (getDegree precision) x y = evaluateKernel cs (getDegree precision) y x) ∧
      (∀ x y, OffCentres (x - y) → Laplacian.laplacian (fun x => kernel cs (getDegree precision) x y) x = 1 ∧
        Laplacian.laplacian (fun y => kernel cs (getDegree precision) x y) y = 1) ∧
      (1 / 3) * ∑ f, ∑ k ∈ range 441, (gaussSquare es 20 20).w k *
        kernel cs (getDegree precision) (cubeFace f ((gaussSquare es 20 20).xi k)) 0 = -1 / 24 := by
  obtain ⟨cs, q, a1, a2, a3, a4, a5, a6, a7⟩ := fit_facts es hes J F solve hsolve precision
  obtain ⟨d1, d2, d3⟩ := degree_facts precision
  set N := getDegree precision with hN
  have hodd := minimal_odd N (by omega) (by omega) q a3 a4 _ a6
  have hN1 : Odd (N - 1) := by
    obtain ⟨k, hk⟩ := d3
    exact ⟨k - 1, by omega⟩
  have hl : N * N ≤ cs.length := by rw [a5]; exact Nat.mul_le_mul (by omega) (by omega)
  have hsym : SymmetricUpTo (N - 1) (coefficient cs) := fun n hn => a6.1 n (by omega)
  have h0 : coefficient cs (N - 1) (N - 1 : Nat) = 0 := hodd (N - 1) hN1 (by omega) _ (by omega) (by omega)
  have hk := kernel_eq cs N (by omega) hl hsym h0
  have heven : ∀ z, expandedKernel (N - 1) (coefficient cs) (-z) = expandedKernel (N - 1) (coefficient cs) z := by
    intro z
    rw [← expanded_neg]
    unfold expandedKernel
    congr 1
    unfold solidExpansion
    refine sum_congr rfl fun n hn => sum_congr rfl fun m hm => ?_
    have hn := mem_range.1 hn
    obtain ⟨m1, m2⟩ := mem_Icc.1 hm
    beta_reduce
    rcases Nat.even_or_odd n with h | h
    · rw [h.neg_one_pow, one_mul]
    · rw [hodd n h (by omega) m m1 m2, mul_zero]
  have hs : ∀ x y, evaluateKernel cs N x y = evaluateKernel cs N y x := by
    intro x y
    rw [hk, hk, ← neg_sub y x, heven]
  have hp : ∀ x y, OffCentres (x - y) → Laplacian.laplacian (fun x => kernel cs N x y) x = 1 := by
    intro x y hx
    rw [C65_pde cs N (by omega) hl hsym x y hx, h0]; simp
  refine ⟨cs, a1, hk, hs, fun x y hx => ⟨hp x y hx, ?_⟩, ?_⟩
  · have e : (fun y => kernel cs N x y) = fun y => kernel cs N y x := by funext z; unfold kernel; rw [hs]
    rw [e]
    refine hp y x fun m hm h => hx (-m.1, -m.2.1, -m.2.2) ?_ ?_
    · simp only [centres, mem_product, mem_Icc] at hm ⊢
      omega
    · rw [show latticePoint (-m.1, -m.2.1, -m.2.2) = -latticePoint m by
        unfold latticePoint; ext i; fin_cases i <;> simp, ← h, neg_sub]
  · rw [← a7]
    congr 1
    refine sum_congr rfl fun f _ => sum_congr rfl fun k _ => ?_
    unfold kernel
    rw [hk, sub_zero, Option.getD_some]

end Bembel.Props
