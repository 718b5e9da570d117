import Verif.Props.Homogenised
import Verif.Props.Quadrature
/-!
# Property theorems C66: the coefficients of the homogenised kernel
-/

namespace Bembel.Props
open Spec Sph Homog Finset

/-- `|x|^n Re Y_n^m(x/|x|)` for `m ≥ 0`. -/
noncomputable def ss (n m : Nat) (x : V3) : ℝ := ‖x‖ ^ n * (harmonicPos n m ((1 / ‖x‖) • x)).re

/-- `n(n+1)/2` -/
def tri (n : Nat) : Nat := n * (n + 1) / 2

theorem hom_tri_succ (n : Nat) : tri (n + 1) = tri n + (n + 1) := by
  unfold tri
  rw [show (n + 1) * (n + 1 + 1) = n * (n + 1) + (n + 1) * 2 by ring, Nat.add_mul_div_right _ _ (by norm_num)]

theorem hom_tri_pos (n : Nat) : 1 ≤ tri (n + 1) := by rw [hom_tri_succ]; omega

theorem hom_tri_mono {a b : Nat} (h : a ≤ b) : tri a ≤ tri b := by
  induction b, h using Nat.le_induction with
  | base => exact le_rfl
  | succ b _ ih => rw [hom_tri_succ]; omega

theorem hom_tri_lt {n m deg : Nat} (hm : m ≤ n) (hn : n ≤ deg) (h1 : 1 ≤ n) : tri n - 1 + m < tri (deg + 1) - 1 := by
  have := hom_tri_mono (show n + 1 ≤ deg + 1 by omega)
  rw [hom_tri_succ n] at this
  obtain ⟨k, rfl⟩ : ∃ k, n = k + 1 := ⟨n - 1, by omega⟩
  have := hom_tri_pos k
  omega

theorem sum_tri (g : Nat → ℝ) (deg : Nat) : ∑ j ∈ range (tri (deg + 1) - 1), g j =
    ∑ n ∈ range deg, ∑ m ∈ range (n + 2), g (tri (n + 1) - 1 + m) := by
  induction deg with
  | zero => simp [tri]
  | succ d ih =>
    have h := hom_tri_pos d
    rw [sum_range_succ, ← ih, hom_tri_succ (d + 1), show tri (d + 1) + (d + 1 + 1) - 1 = (tri (d + 1) - 1) + (d + 2) by omega, sum_range_add]

/-! ## the faces -/

theorem facePoint_eq (Q : Cubature ℝ) (f : Fin 3) (k : Nat) : facePoint Q f k = cubeFace f (Q.xi k) := by
  unfold facePoint cubeFace
  fin_cases f <;> simp only [] <;> norm_num

theorem unit_eq (f : Fin 3) : Homog.unit f = axis f := by
  unfold axis
  fin_cases f <;> · unfold Homog.unit; ext i; fin_cases i <;> simp

theorem axis_apply (f i : Fin 3) : axis f i = if i = f then 1 else 0 := sb_apply f i

theorem cubeFace_coord (f : Fin 3) (u : ℝ × ℝ) : cubeFace f u f = -1 / 2 := by
  unfold cubeFace; fin_cases f <;> simp

theorem off_of_half (x : V3) (f : Fin 3) (h : x f = -1 / 2 ∨ x f = 1 / 2) : OffCentres x := by
  intro m _ e
  have h1 : ∃ z : Int, latticePoint m f = z := by
    unfold latticePoint
    fin_cases f
    · exact ⟨m.1, by simp⟩
    · exact ⟨m.2.1, by simp⟩
    · exact ⟨m.2.2, by simp⟩
  obtain ⟨z, hz⟩ := h1
  rw [e, hz] at h
  rcases h with h | h
  · have : ((2 * z : Int) : ℝ) = ((-1 : Int) : ℝ) := by push_cast; linarith
    have := Int.cast_injective this
    omega
  · have : ((2 * z : Int) : ℝ) = ((1 : Int) : ℝ) := by push_cast; linarith
    have := Int.cast_injective this
    omega

theorem off_ne_zero {x : V3} (h : OffCentres x) : x ≠ 0 := by
  have := h (0, 0, 0) (by simp [centres])
  rwa [show latticePoint (0, 0, 0) = 0 by unfold latticePoint; ext i; fin_cases i <;> simp] at this

theorem off_face (f : Fin 3) (u : ℝ × ℝ) : OffCentres (cubeFace f u) ∧ OffCentres (cubeFace f u + axis f) := by
  refine ⟨off_of_half _ f (Or.inl (cubeFace_coord f u)), off_of_half _ f (Or.inr ?_)⟩
  rw [PiLp.add_apply, cubeFace_coord, axis_apply]; norm_num

theorem norm_eq_of_sq {x y : V3} (h : sq3 x = sq3 y) : ‖x‖ = ‖y‖ := by
  rw [sq3_norm, sq3_norm] at h
  exact (mul_self_inj (norm_nonneg _) (norm_nonneg _)).1 h

theorem norm_face (f : Fin 3) (u : ℝ × ℝ) : ‖cubeFace f u + axis f‖ = ‖cubeFace f u‖ := by
  apply norm_eq_of_sq
  unfold sq3
  simp only [PiLp.add_apply, axis_apply]
  unfold cubeFace
  fin_cases f <;> simp <;> ring

theorem norm_face' (f : Fin 3) (u : ℝ × ℝ) : ‖cubeFace f u‖ = ‖cubeFace 0 u‖ := by
  apply norm_eq_of_sq
  unfold sq3 cubeFace
  fin_cases f <;> simp <;> ring

/-! ## the displacement -/

theorem row_ne {k k' s s' : Nat} (hk : k < mSquare) (hk' : k' < mSquare) (h : ¬(k = k' ∧ s = s')) : k + s * mSquare ≠ k' + s' * mSquare := by
  intro e
  have h1 : (k + s * mSquare) % mSquare = (k' + s' * mSquare) % mSquare := by rw [e]
  rw [Nat.add_mul_mod_self_right, Nat.add_mul_mod_self_right, Nat.mod_eq_of_lt hk, Nat.mod_eq_of_lt hk'] at h1
  subst h1
  have : s * mSquare = s' * mSquare := by omega
  exact h ⟨rfl, Nat.eq_of_mul_eq_mul_right (by decide) this⟩

theorem displacementFace_eq (ps : Fin 3 → Nat → V3) (f : Fin 3) (d : Nat → ℝ) (n : Nat) (hn : n ≤ mSquare) :
    let r := (List.range n).foldl (fun d k =>
      let tmp := dkMod (ps f k) - dkMod (ps f k + Homog.unit f)
      let d := Function.update d (k + 2 * f.val * mSquare) (kMod (ps f k) - kMod (ps f k + Homog.unit f))
      Function.update d (k + (2 * f.val + 1) * mSquare) (tmp f)) d
    (∀ k < n, r (k + 2 * f.val * mSquare) = kMod (ps f k) - kMod (ps f k + Homog.unit f) ∧
      r (k + (2 * f.val + 1) * mSquare) = dkMod (ps f k) f - dkMod (ps f k + Homog.unit f) f) ∧
    ∀ k < mSquare, ∀ s, s ≠ 2 * f.val → s ≠ 2 * f.val + 1 → r (k + s * mSquare) = d (k + s * mSquare) := by
  induction n with
  | zero => exact ⟨fun k hk => by omega, fun _ _ _ _ _ => rfl⟩
  | succ n ih =>
    obtain ⟨h1, h2⟩ := ih (by omega)
    simp only [List.range_succ, List.foldl_append, List.foldl_cons, List.foldl_nil]
    generalize (List.range n).foldl _ d = r at h1 h2
    refine ⟨fun k hk => ?_, fun k hk s s1 s2 => ?_⟩
    · by_cases e : k = n
      · subst e
        simp only [Function.update_apply]
        rw [if_neg (row_ne (by omega) (by omega) (by omega))]
        simp
      · obtain ⟨a, b⟩ := h1 k (by omega)
        simp only [Function.update_apply]
        rw [if_neg (row_ne (by omega) (by omega) (by omega)), if_neg (row_ne (by omega) (by omega) (by omega)),
          if_neg (row_ne (by omega) (by omega) (by omega)), if_neg (row_ne (by omega) (by omega) (by omega))]
        exact ⟨a, b⟩
    · simp only [Function.update_apply]
      rw [if_neg (row_ne (by omega) (by omega) (by omega)), if_neg (row_ne (by omega) (by omega) (by omega))]
      exact h2 k hk s s1 s2

theorem displacementFace_eq' (ps : Fin 3 → Nat → V3) (f : Fin 3) (d : Nat → ℝ) :
    (∀ k < mSquare, displacementFace ps f d (k + 2 * f.val * mSquare) = kMod (ps f k) - kMod (ps f k + Homog.unit f) ∧
      displacementFace ps f d (k + (2 * f.val + 1) * mSquare) = dkMod (ps f k) f - dkMod (ps f k + Homog.unit f) f) ∧
    ∀ k < mSquare, ∀ s, s ≠ 2 * f.val → s ≠ 2 * f.val + 1 → displacementFace ps f d (k + s * mSquare) = d (k + s * mSquare) := by
  unfold displacementFace
  exact displacementFace_eq ps f d mSquare le_rfl

theorem displacement_eq (junk : Nat → ℝ) (ps : Fin 3 → Nat → V3) (f : Fin 3) (k : Nat) (hk : k < mSquare) :
    getDisplacement junk ps (k + 2 * f.val * mSquare) = kMod (ps f k) - kMod (ps f k + Homog.unit f) ∧
    getDisplacement junk ps (k + (2 * f.val + 1) * mSquare) = dkMod (ps f k) f - dkMod (ps f k + Homog.unit f) f := by
  unfold getDisplacement
  have h0 := displacementFace_eq' ps 0 junk
  have h1 := displacementFace_eq' ps 1 (displacementFace ps 0 junk)
  have h2 := displacementFace_eq' ps 2 (displacementFace ps 1 (displacementFace ps 0 junk))
  generalize displacementFace ps 2 (displacementFace ps 1 (displacementFace ps 0 junk)) = d2 at *
  generalize displacementFace ps 1 (displacementFace ps 0 junk) = d1 at *
  generalize displacementFace ps 0 junk = d0 at *
  rcases (show f = 0 ∨ f = 1 ∨ f = 2 by omega) with rfl | rfl | rfl
  · rw [h2.2 k hk _ (by simp) (by simp), h2.2 k hk _ (by simp) (by simp), h1.2 k hk _ (by simp) (by simp), h1.2 k hk _ (by simp) (by simp)]
    exact h0.1 k hk
  · rw [h2.2 k hk _ (by simp) (by simp), h2.2 k hk _ (by simp) (by simp)]
    exact h1.1 k hk
  · exact h2.1 k hk

/-! ## the system -/

/-- The entries of the two rows of a point. -/
def RowsOk (ps : Fin 3 → Nat → V3) (deg : Nat) (f : Fin 3) (k : Nat) (A : Nat → Nat → ℝ) : Prop :=
  ∀ n m, 1 ≤ n → n ≤ deg → m ≤ n →
    A (k + 2 * f.val * mSquare) (tri n - 1 + m) = fac m * (ss n m (ps f k) - ss n m (ps f k + Homog.unit f)) ∧
    A (k + (2 * f.val + 1) * mSquare) (tri n - 1 + m) =
      fac m * (fderiv ℝ (ss n m) (ps f k) (axis f) - fderiv ℝ (ss n m) (ps f k + Homog.unit f) (axis f))

theorem setRow_hit (A : Nat → Nat → ℝ) (r c len : Nat) (v : Nat → ℝ) (m : Nat) (h : m < len) : setRow A r c len v r (c + m) = v m := by
  unfold setRow
  rw [if_pos ⟨rfl, by omega, by omega⟩, Nat.add_sub_cancel_left]

theorem setRow_other (A : Nat → Nat → ℝ) (r c len : Nat) (v : Nat → ℝ) (i j : Nat) (h : i ≠ r ∨ j < c ∨ c + len ≤ j) :
    setRow A r c len v i j = A i j := by
  unfold setRow
  rw [if_neg]
  rintro ⟨h1, h2, h3⟩
  omega

theorem systemDegree_fold (f : Fin 3) (k : Nat) (hk : k < mSquare) (norm : ℝ) (pre pst : (Nat → ℝ) × (Nat → ℝ))
    (dpre dpst : (Nat → ℝ) × (Nat → ℝ) × (Nat → ℝ)) (A : Nat → Nat → ℝ) (deg : Nat) :
    let R := (List.range deg).foldl (fun A n => systemDegree f k norm pre pst dpre dpst A (n + 1)) A
    (∀ n m, 1 ≤ n → n ≤ deg → m ≤ n →
      R (k + 2 * f.val * mSquare) (tri n - 1 + m) = fac m * (norm ^ n * (pre.1 (n * n + n + m) - pst.1 (n * n + n + m))) ∧
      R (k + (2 * f.val + 1) * mSquare) (tri n - 1 + m) = fac m * (row3 f dpre (n * n + n + m) - row3 f dpst (n * n + n + m))) ∧
    ∀ i j, i ≠ k + 2 * f.val * mSquare → i ≠ k + (2 * f.val + 1) * mSquare → R i j = A i j := by
  have hrow : k + 2 * f.val * mSquare ≠ k + (2 * f.val + 1) * mSquare := row_ne hk hk (by omega)
  induction deg with
  | zero => exact ⟨fun n m h1 h2 => by omega, fun _ _ _ _ => rfl⟩
  | succ d ih =>
    obtain ⟨h1, h2⟩ := ih
    simp only [List.range_succ, List.foldl_append, List.foldl_cons, List.foldl_nil]
    generalize (List.range d).foldl _ A = R at h1 h2
    have ht : (d + 1) * (d + 1 + 1) / 2 = tri (d + 1) := rfl
    have htp := hom_tri_pos d
    refine ⟨fun n m n1 n2 hm => ?_, fun i j e1 e2 => ?_⟩
    · unfold systemDegree
      simp only [ht]
      by_cases e : n = d + 1
      · subst e
        rw [setRow_other _ _ _ _ _ _ _ (Or.inl hrow), setRow_hit _ _ _ _ _ _ (by omega), setRow_hit _ _ _ _ _ _ (by omega)]
        unfold fac
        by_cases hm0 : m = 0
        · simp [hm0]
        · simp only [show 1 ≤ m by omega, hm0, if_true, if_false]
          constructor <;> ring
      · have hlt := hom_tri_lt (deg := d) hm (by omega) n1
        rw [setRow_other _ _ _ _ _ _ _ (Or.inr (Or.inl hlt)), setRow_other _ _ _ _ _ _ _ (Or.inr (Or.inl hlt)),
          setRow_other _ _ _ _ _ _ _ (Or.inr (Or.inl hlt)), setRow_other _ _ _ _ _ _ _ (Or.inr (Or.inl hlt))]
        exact h1 n m n1 (by omega) hm
    · unfold systemDegree
      simp only [ht]
      rw [setRow_other _ _ _ _ _ _ _ (Or.inl e2), setRow_other _ _ _ _ _ _ _ (Or.inl e1)]
      exact h2 i j e1 e2

theorem row3_eq (f : Fin 3) (g : (Nat → ℝ) × (Nat → ℝ) × (Nat → ℝ)) (i : Nat) :
    g.1 i * axis f 0 + g.2.1 i * axis f 1 + g.2.2 i * axis f 2 = row3 f g i := by
  simp only [axis_apply]
  fin_cases f <;> simp [row3]

theorem tables (J : Fresh) (x : V3) (hx : x ≠ 0) (deg : Nat) (hd : 1 ≤ deg) : ∃ val rows,
    sphericalHarmonicsFull J.vals J.old x deg = some val ∧ dsolidHarmonicsFull J.leg J.rows x deg val = some rows ∧
    ∀ n m, n ≤ deg → m ≤ n → ‖x‖ ^ n * val.1 (n * n + n + m) = ss n m x ∧
      ∀ f, row3 f rows (n * n + n + m) = fderiv ℝ (ss n m) x (axis f) := by
  obtain ⟨val, rows, h1, h2, h3⟩ := C55_gradient J.leg J.rows x hx deg hd J.vals J.old
  obtain ⟨val', h1', h4⟩ := C55_full J.vals J.old x hx deg
  obtain rfl : val = val' := Option.some.inj (h1.symm.trans h1')
  refine ⟨val, rows, h1, h2, fun n m hn hm => ⟨?_, fun f => ?_⟩⟩
  · have := (h4 n hn m (by simpa using hm)).1
    rw [entry_pos] at this
    rw [this, harmonic, if_pos (by omega), Int.natAbs_natCast]
    rfl
  · obtain ⟨D, hD, hv⟩ := h3 n hn m (by simpa using hm)
    have e : (fun z : V3 => ‖z‖ ^ n * (harmonic n (m : Int) ((1 / ‖z‖) • z)).re) = ss n m := by
      funext z; unfold ss harmonic; rw [if_pos (by omega), Int.natAbs_natCast]
    rw [e] at hD
    rw [hD.fderiv, hv, entry_pos, row3_eq]

theorem systemFace_eq (J : Bool → Fresh) (Q : Cubature ℝ) (deg : Nat) (hd : 1 ≤ deg) (f : Fin 3) (k : Nat) (hk : k < mSquare)
    (A : Nat → Nat → ℝ) : ∃ B, systemFace J (facePoint Q) deg f k A = some B ∧ RowsOk (facePoint Q) deg f k B ∧
      ∀ i j, i ≠ k + 2 * f.val * mSquare → i ≠ k + (2 * f.val + 1) * mSquare → B i j = A i j := by
  unfold systemFace RowsOk
  simp only [facePoint_eq, unit_eq]
  have ho := off_face f (Q.xi k)
  obtain ⟨v1, r1, a1, b1, c1⟩ := tables (J false) _ (off_ne_zero ho.1) deg hd
  obtain ⟨v2, r2, a2, b2, c2⟩ := tables (J true) _ (off_ne_zero ho.2) deg hd
  simp only [a1, a2, b1, b2, Option.bind_eq_bind, Option.bind_some]
  refine ⟨_, rfl, ?_⟩
  obtain ⟨h1, h2⟩ := systemDegree_fold f k hk ‖cubeFace f (Q.xi k)‖ v1 v2 r1 r2 A deg
  refine ⟨fun n m n1 n2 hm => ?_, h2⟩
  obtain ⟨e1, e2⟩ := h1 n m n1 n2 hm
  refine ⟨?_, ?_⟩
  · rw [e1, mul_sub, (c1 n m n2 hm).1]
    have := (c2 n m n2 hm).1
    rw [norm_face] at this
    rw [this]
  · rw [e2, (c1 n m n2 hm).2, (c2 n m n2 hm).2]

theorem rowsOk_mono {ps : Fin 3 → Nat → V3} {deg : Nat} {f g : Fin 3} {k k' : Nat} {A B : Nat → Nat → ℝ} (hk : k < mSquare) (hk' : k' < mSquare)
    (h : RowsOk ps deg f k A) (hne : ¬(f = g ∧ k = k'))
    (hB : ∀ i j, i ≠ k' + 2 * g.val * mSquare → i ≠ k' + (2 * g.val + 1) * mSquare → B i j = A i j) : RowsOk ps deg f k B := by
  intro n m n1 n2 hm
  have hfg : ¬(f.val = g.val ∧ k = k') := fun e => hne ⟨Fin.ext e.1, e.2⟩
  rw [hB _ _ (row_ne hk hk' (by omega)) (row_ne hk hk' (by omega)), hB _ _ (row_ne hk hk' (by omega)) (row_ne hk hk' (by omega))]
  exact h n m n1 n2 hm

theorem systemMatrix_eq (J : Nat → Fin 3 → Bool → Fresh) (junk : Nat → Nat → ℝ) (Q : Cubature ℝ) (deg : Nat) (hd : 1 ≤ deg) :
    ∃ A, systemMatrix J junk (facePoint Q) deg = some A ∧ ∀ k < mSquare, ∀ f, RowsOk (facePoint Q) deg f k A := by
  unfold systemMatrix
  refine foldlM_range_inv _ (fun n A => ∀ k < n, ∀ f, RowsOk (facePoint Q) deg f k A) mSquare junk (fun k hk => by omega) ?_
  intro k hk A hA
  obtain ⟨B0, a0, b0, c0⟩ := systemFace_eq (J k 0) Q deg hd 0 k hk A
  obtain ⟨B1, a1, b1, c1⟩ := systemFace_eq (J k 1) Q deg hd 1 k hk B0
  obtain ⟨B2, a2, b2, c2⟩ := systemFace_eq (J k 2) Q deg hd 2 k hk B1
  refine ⟨B2, by simp only [a0, a1, a2, Option.bind_eq_bind, Option.bind_some], fun k' hk' f => ?_⟩
  by_cases e : k' = k
  · subst e
    rcases (show f = 0 ∨ f = 1 ∨ f = 2 by omega) with rfl | rfl | rfl
    · exact rowsOk_mono hk hk (rowsOk_mono hk hk b0 (by simp) c1) (by simp) c2
    · exact rowsOk_mono hk hk b1 (by simp) c2
    · exact b2
  · have h0 := hA k' (by omega) f
    exact rowsOk_mono (by omega) hk (rowsOk_mono (by omega) hk (rowsOk_mono (by omega) hk h0 (by tauto) c0) (by tauto) c1) (by tauto) c2

/-! ## the expansion -/

theorem ss_diff (n m : Nat) (hm : m ≤ n) (x : V3) (hx : x ≠ 0) : DifferentiableAt ℝ (ss n m) x := by
  obtain ⟨dU, hU⟩ := solidPoly_harmonic m (n - m)
  have : DifferentiableAt ℝ (fun x => sphericalNorm n m * solidPoly m (n - m) x) x :=
    ((hU.smooth.differentiable (by norm_num)) x).const_mul _
  refine this.congr_of_eventuallyEq ?_
  filter_upwards [isOpen_ne.mem_nhds hx] with z hz
  exact harmonicPos_solid n m hm z hz

theorem ss_zero (x : V3) : ss 0 0 x = 0.5 / Real.sqrt Real.pi := by
  unfold ss
  rw [pow_zero, one_mul, harmonicPos_re, q_zero, cr_zero, mul_one]

theorem harmonic_re (n : Nat) (m : Int) (y : V3) : (harmonic n m y).re = (harmonicPos n m.natAbs y).re := by
  unfold harmonic; split <;> simp

/-- The expansion in terms of the unknowns of the system. -/
noncomputable def half (deg : Nat) (h : Nat → ℝ) (x : V3) : ℝ :=
  ∑ n ∈ range deg, ∑ m ∈ range (n + 2), h (tri (n + 1) - 1 + m) * (fac m * ss (n + 1) m x)

theorem degree_sum (n : Nat) (c : Int → ℝ) (hc : ∀ m : Int, -n ≤ m → m ≤ n → c (-m) = c m) (x : V3) :
    ∑ m ∈ Icc (-(n : Int)) n, c m * (‖x‖ ^ n * (harmonic n m ((1 / ‖x‖) • x)).re) = ∑ j ∈ range (n + 1), c j * (fac j * ss n j x) := by
  rw [sum_orders, sum_range_succ', add_comm]
  congr 1
  · refine sum_congr rfl fun j hj => ?_
    have hj := mem_range.1 hj
    have e := hc ((j : Int) + 1) (by omega) (by omega)
    rw [e, harmonic_re, harmonic_re, show ((j : Int) + 1).natAbs = j + 1 by omega, show (-((j : Int) + 1)).natAbs = j + 1 by omega]
    unfold fac ss
    rw [if_neg (by omega)]
    push_cast
    ring
  · rw [harmonic_re]; unfold fac ss; simp

theorem solidExpansion_half (deg : Nat) (c : Nat → Int → ℝ) (h : Nat → ℝ) (hc : SymmetricUpTo deg c)
    (hh : ∀ n m, 1 ≤ n → n ≤ deg → m ≤ n → h (tri n - 1 + m) = c n m) (x : V3) :
    solidExpansion deg c x = c 0 0 * (0.5 / Real.sqrt Real.pi) + half deg h x := by
  unfold solidExpansion half
  rw [sum_range_succ', add_comm]
  congr 1
  · have := degree_sum 0 (c 0) (hc 0 (by omega)) x
    rw [this]; simp [ss_zero, fac]
  · refine sum_congr rfl fun n hn => ?_
    have hn := mem_range.1 hn
    rw [degree_sum (n + 1) (c (n + 1)) (hc (n + 1) (by omega)) x]
    refine sum_congr rfl fun m hm => ?_
    have hm := mem_range.1 hm
    rw [hh (n + 1) m (by omega) (by omega) (by omega)]

theorem exists_half (deg : Nat) (c : Nat → Int → ℝ) : ∃ h : Nat → ℝ, ∀ n m, 1 ≤ n → n ≤ deg → m ≤ n → h (tri n - 1 + m) = c n m := by
  induction deg with
  | zero => exact ⟨fun _ => 0, fun n m h1 h2 => by omega⟩
  | succ d ih =>
    obtain ⟨h, hh⟩ := ih
    refine ⟨fun j => if j < tri (d + 1) - 1 then h j else c (d + 1) ((j - (tri (d + 1) - 1) : Nat) : Int), fun n m h1 h2 hm => ?_⟩
    by_cases e : n = d + 1
    · subst e
      simp only []
      rw [if_neg (by omega), Nat.add_sub_cancel_left]
    · simp only []
      rw [if_pos (hom_tri_lt hm (by omega) h1)]
      exact hh n m h1 (by omega) hm

theorem half_fderiv (deg : Nat) (h : Nat → ℝ) (x : V3) (hx : x ≠ 0) (v : V3) : DifferentiableAt ℝ (half deg h) x ∧
    fderiv ℝ (half deg h) x v = ∑ n ∈ range deg, ∑ m ∈ range (n + 2), h (tri (n + 1) - 1 + m) * (fac m * fderiv ℝ (ss (n + 1) m) x v) := by
  have hd : HasFDerivAt (half deg h) (∑ n ∈ range deg, ∑ m ∈ range (n + 2), h (tri (n + 1) - 1 + m) • fac m • fderiv ℝ (ss (n + 1) m) x) x := by
    unfold half
    refine HasFDerivAt.fun_sum fun n _ => HasFDerivAt.fun_sum fun m hm => ?_
    have hm := mem_range.1 hm
    exact ((ss_diff (n + 1) m (by omega) x hx).hasFDerivAt.const_mul _).const_mul _
  refine ⟨hd.differentiableAt, ?_⟩
  rw [hd.fderiv]
  simp [ContinuousLinearMap.sum_apply]

/-- The rows of a point applied to coefficients are the jumps of the expansion and of its derivative. -/
theorem rows_jump (deg : Nat) (Q : Cubature ℝ) (A : Nat → Nat → ℝ) (f : Fin 3) (k : Nat) (hr : RowsOk (facePoint Q) deg f k A) (h : Nat → ℝ) :
    ∑ j ∈ range (tri (deg + 1) - 1), A (k + 2 * f.val * mSquare) j * h j =
      half deg h (cubeFace f (Q.xi k)) - half deg h (cubeFace f (Q.xi k) + axis f) ∧
    ∑ j ∈ range (tri (deg + 1) - 1), A (k + (2 * f.val + 1) * mSquare) j * h j =
      (∑ n ∈ range deg, ∑ m ∈ range (n + 2), h (tri (n + 1) - 1 + m) * (fac m * fderiv ℝ (ss (n + 1) m) (cubeFace f (Q.xi k)) (axis f))) -
        ∑ n ∈ range deg, ∑ m ∈ range (n + 2), h (tri (n + 1) - 1 + m) * (fac m * fderiv ℝ (ss (n + 1) m) (cubeFace f (Q.xi k) + axis f) (axis f)) := by
  unfold RowsOk at hr
  rw [facePoint_eq, unit_eq] at hr
  rw [sum_tri, sum_tri]
  constructor
  · unfold half
    rw [← sum_sub_distrib]
    refine sum_congr rfl fun n hn => ?_
    rw [← sum_sub_distrib]
    refine sum_congr rfl fun m hm => ?_
    have hn := mem_range.1 hn
    have hm := mem_range.1 hm
    rw [(hr (n + 1) m (by omega) (by omega) (by omega)).1]; ring
  · rw [← sum_sub_distrib]
    refine sum_congr rfl fun n hn => ?_
    rw [← sum_sub_distrib]
    refine sum_congr rfl fun m hm => ?_
    have hn := mem_range.1 hn
    have hm := mem_range.1 hm
    rw [(hr (n + 1) m (by omega) (by omega) (by omega)).2]; ring

/-- The jumps of the kernel are the residuals of the system. -/
theorem residual (deg : Nat) (Q : Cubature ℝ) (junk : Nat → ℝ) (A : Nat → Nat → ℝ) (hA : ∀ k < mSquare, ∀ f, RowsOk (facePoint Q) deg f k A)
    (c : Nat → Int → ℝ) (h : Nat → ℝ) (hc : SymmetricUpTo deg c) (hh : ∀ n m, 1 ≤ n → n ≤ deg → m ≤ n → h (tri n - 1 + m) = c n m) :
    periodicityError mSquare Q.xi (expandedKernel deg c) = ∑ i ∈ range (6 * mSquare),
      (∑ j ∈ range (tri (deg + 1) - 1), A i j * h j - -getDisplacement junk (facePoint Q) i) ^ 2 := by
  have e : expandedKernel deg c = fun x => kMod x + (c 0 0 * (0.5 / Real.sqrt Real.pi) + half deg h x) := by
    funext x
    unfold expandedKernel
    rw [solidExpansion_half deg c h hc hh, C65_modified]
  have hfd : ∀ (x : V3) (f : Fin 3), OffCentres x → fderiv ℝ (expandedKernel deg c) x (axis f) = dkMod x f + fderiv ℝ (half deg h) x (axis f) := by
    intro x f hx
    have h1 := C65_modified_gradient x hx
    have h2 := (half_fderiv deg h x (off_ne_zero hx) (axis f)).1.hasFDerivAt
    have h3 : HasFDerivAt (fun x => kMod x + (c 0 0 * (0.5 / Real.sqrt Real.pi) + half deg h x)) _ x := h1.add (h2.const_add _)
    rw [e, h3.fderiv]
    simp only [ContinuousLinearMap.add_apply, innerSL_apply_apply]
    congr 1
    rw [inner3]
    simp only [axis_apply]
    fin_cases f <;> simp
  rw [H2.sum_range_mul]
  unfold periodicityError
  have key : ∀ f : Fin 3, ∀ k ∈ range mSquare,
      (expandedKernel deg c (cubeFace f (Q.xi k)) - expandedKernel deg c (cubeFace f (Q.xi k) + axis f)) ^ 2 +
        (fderiv ℝ (expandedKernel deg c) (cubeFace f (Q.xi k)) (axis f) - fderiv ℝ (expandedKernel deg c) (cubeFace f (Q.xi k) + axis f) (axis f)) ^ 2 =
      (∑ j ∈ range (tri (deg + 1) - 1), A (2 * f.val * mSquare + k) j * h j - -getDisplacement junk (facePoint Q) (2 * f.val * mSquare + k)) ^ 2 +
      (∑ j ∈ range (tri (deg + 1) - 1), A ((2 * f.val + 1) * mSquare + k) j * h j - -getDisplacement junk (facePoint Q) ((2 * f.val + 1) * mSquare + k)) ^ 2 := by
    intro f k hk
    have hk := mem_range.1 hk
    obtain ⟨d1, d2⟩ := displacement_eq junk (facePoint Q) f k hk
    obtain ⟨o1, o2⟩ := off_face f (Q.xi k)
    have hr := hA k hk f
    rw [hfd _ _ o1, hfd _ _ o2, (half_fderiv deg h _ (off_ne_zero o1) _).2, (half_fderiv deg h _ (off_ne_zero o2) _).2, e]
    simp only []
    rw [add_comm (2 * f.val * mSquare) k, add_comm ((2 * f.val + 1) * mSquare) k, d1, d2, facePoint_eq, unit_eq]
    obtain ⟨s1, s2⟩ := rows_jump deg Q A f k hr h
    rw [s1, s2]
    ring
  rw [Fin.sum_univ_three, sum_congr rfl (key 0), sum_congr rfl (key 1), sum_congr rfl (key 2)]
  simp only [sum_add_distrib, sum_range_succ, range_zero, sum_empty]
  simp
  ring

/-! ## the coefficients -/

theorem copy_eq (deg : Nat) (coeffs junk : Nat → ℝ) (h0 : coeffs 0 = 0) : ∃ f0 full,
    vput ((deg + 1) * (deg + 1)) junk 0 0 = some f0 ∧
    (List.range deg).foldlM (fun full n => copyDegree ((deg + 1) * (deg + 1)) coeffs full (n + 1)) f0 = some full ∧
    RowInv1 (fun a b => coeffs (tri a + b)) (deg + 1) 0 full := by
  have hpos : 0 < (deg + 1) * (deg + 1) := by positivity
  refine ⟨Function.update junk 0 0, ?_⟩
  have hstart : RowInv1 (fun a b => coeffs (tri a + b)) 1 0 (Function.update junk 0 0) := by
    intro a b hb hab
    obtain rfl : a = 0 := by omega
    obtain rfl : b = 0 := by omega
    simp [tri, h0]
  obtain ⟨full, h1, h2⟩ := foldlM_range_inv (fun full n => copyDegree ((deg + 1) * (deg + 1)) coeffs full (n + 1))
    (fun n r => RowInv1 (fun a b => coeffs (tri a + b)) (n + 1) 0 r) deg _ hstart (by
      intro n hn r hr
      unfold copyDegree
      obtain ⟨r1, a1, b1⟩ := row_store (N := deg) hr (by omega) (by omega) (coeffs (tri (n + 1))) (by simp)
      have e1 : vput ((deg + 1) * (deg + 1)) r ((n + 1) * (n + 1) + (n + 1)) (coeffs ((n + 1) * (n + 1 + 1) / 2)) = some r1 := by
        rw [← a1]; unfold storeRow; simp [tri]
      simp only [e1, Option.bind_eq_bind, Option.bind_some]
      obtain ⟨r2, a2, b2⟩ := foldlM_range_inv (fun full m' =>
          (vput ((deg + 1) * (deg + 1)) full ((n + 1) * (n + 1) + (n + 1) + (m' + 1)) (coeffs ((n + 1) * (n + 1 + 1) / 2 + (m' + 1)))).bind fun full =>
          vput ((deg + 1) * (deg + 1)) full ((n + 1) * (n + 1) + (n + 1) - (m' + 1)) (coeffs ((n + 1) * (n + 1 + 1) / 2 + (m' + 1))))
        (fun m r => RowInv1 (fun a b => coeffs (tri a + b)) (n + 1) (m + 1) r) (n + 1) r1 b1 (by
          intro m hm r hr
          obtain ⟨r', a', b'⟩ := row_store (N := deg) hr (by omega) (by omega) (coeffs (tri (n + 1) + (m + 1))) rfl
          refine ⟨r', ?_, b'⟩
          rw [← a']; unfold storeRow; simp [tri])
      refine ⟨r2, a2, ?_⟩
      intro a b hb hab
      exact b2 a b hb (by omega))
  exact ⟨full, by unfold vput; rw [if_pos hpos], h1, h2⟩

theorem coefficient_list (size : Nat) (full : Nat → ℝ) (n : Nat) (m : Int) (h : entry n m < size) :
    coefficient ((List.range size).map full) n m = full (entry n m) := by
  unfold coefficient
  rw [show ((n : Int) * n + n + m).toNat = entry n m from rfl, List.getD_eq_getElem?_getD, List.getElem?_map, List.getElem?_range h]
  rfl

theorem entry_lt {n N : Nat} {m : Int} (h1 : -n ≤ m) (h2 : m ≤ n) (hn : n ≤ N) : entry n m < (N + 1) * (N + 1) := by
  have h := idx_lt (n := n) (j := n) (N := N + 1) le_rfl (by omega)
  unfold entry
  have : ((n : Int) * n + n + m).toNat ≤ n * (n + 1) + n := by
    rw [Int.toNat_le]; push_cast; nlinarith
  omega

theorem rowInv_entry {g : Nat → Nat → ℝ} {N : Nat} {r : Nat → ℝ} (h : RowInv1 g (N + 1) 0 r) (n : Nat) (hn : n ≤ N) (m : Int) (h1 : -n ≤ m) (h2 : m ≤ n) :
    r (entry n m) = g n m.natAbs := by
  have := h n m.natAbs (by omega) (by omega)
  rcases le_total 0 m with hm | hm
  · obtain ⟨j, rfl⟩ := Int.eq_ofNat_of_zero_le hm
    rw [show entry n (j : Int) = n * n + n + j from entry_pos n j]
    simpa using this.1
  · obtain ⟨j, hj⟩ := Int.eq_ofNat_of_zero_le (show 0 ≤ -m by omega)
    obtain rfl : m = -(j : Int) := by omega
    rw [entry_neg n j (by omega)]
    simpa using this.2

end Bembel.Props
