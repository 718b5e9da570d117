import Verif.Props.SphericalGradients
import Verif.Lemmas.Radial
import Mathlib.Analysis.Calculus.Deriv.Inv
/-!
# Property theorems C55: tables of Legendre functions, spherical harmonics and their gradients
-/

namespace Bembel.Props
open Spec Sph

/-! ## Legendre functions -/

theorem tri_succ (n : Nat) : (n + 1) * (n + 2) / 2 = n * (n + 1) / 2 + (n + 1) := by
  rw [show (n + 1) * (n + 2) = n * (n + 1) + (n + 1) * 2 by ring, Nat.add_mul_div_right _ _ (by omega)]

theorem tri_mono {a b : Nat} (h : a < b) : a * (a + 1) / 2 + a < b * (b + 1) / 2 := by
  obtain ⟨k, rfl⟩ : ∃ k, b = a + 1 + k := ⟨b - (a + 1), by omega⟩
  clear h
  induction k with
  | zero => rw [Nat.add_zero, tri_succ]; omega
  | succ k ih => rw [← add_assoc, show a + 1 + k + 1 + 1 = a + 1 + k + 2 by ring, tri_succ]; omega

/-- The entries of the degrees below `n`, and of degree `n` with orders below `j`, are filled. -/
def TriInv (f : Nat → Nat → ℝ) (n j : Nat) (L : Nat → ℝ) : Prop :=
  ∀ a b, b ≤ a → (a < n ∨ (a = n ∧ b < j)) → L (a * (a + 1) / 2 + b) = f a b

theorem tri_get {f : Nat → Nat → ℝ} {n j N : Nat} {L : Nat → ℝ} (h : TriInv f n j L) {a b : Nat} (hb : b ≤ a) (ha : a < n) (hN : a ≤ N) :
    vget ((N + 1) * (N + 2) / 2) L (a * (a + 1) / 2 + b) = some (f a b) := by
  unfold vget
  rw [if_pos, h a b hb (Or.inl ha)]
  have := tri_mono (show a < N + 1 by omega)
  rw [show N + 1 + 1 = N + 2 by ring] at this
  omega

theorem tri_put {f : Nat → Nat → ℝ} {n j N : Nat} {L : Nat → ℝ} (h : TriInv f n j L) (hj : j ≤ n) (hN : n ≤ N) (v : ℝ) (hv : v = f n j) :
    ∃ L', vput ((N + 1) * (N + 2) / 2) L (n * (n + 1) / 2 + j) v = some L' ∧ TriInv f n (j + 1) L' := by
  have hlt : n * (n + 1) / 2 + j < (N + 1) * (N + 2) / 2 := by
    have := tri_mono (show n < N + 1 by omega)
    rw [show N + 1 + 1 = N + 2 by ring] at this
    omega
  refine ⟨Function.update L (n * (n + 1) / 2 + j) v, by unfold vput; rw [if_pos hlt], ?_⟩
  intro a b hb hab
  by_cases e : a = n ∧ b = j
  · obtain ⟨rfl, rfl⟩ := e
    rw [Function.update_self, hv]
  · rw [Function.update_of_ne, h a b hb (by omega)]
    intro hc
    rcases hab with hlt | ⟨rfl, hb'⟩
    · have := tri_mono hlt; omega
    · omega

theorem tri_next {f : Nat → Nat → ℝ} {n : Nat} {L : Nat → ℝ} (h : TriInv f n (n + 1) L) : TriInv f (n + 1) 0 L := by
  intro a b hb hab
  refine h a b hb ?_
  omega

/-- C55: the table of the derivatives of the Legendre polynomials of degree at most `N`, `N ≥ 1`, whatever the initial content. -/
theorem C55_legendre (junk : Nat → ℝ) (N : Nat) (hN : 1 ≤ N) (t : ℝ) : ∃ L, legendreFull junk N t = some L ∧
    ∀ n m, m ≤ n → n ≤ N → L (n * (n + 1) / 2 + m) = legendreDeriv n m t := by
  set f : Nat → Nat → ℝ := fun n m => legendreDeriv n m t with hf
  have h0 : TriInv f 0 0 junk := by intro a b _ h; omega
  obtain ⟨L0, a0, b0⟩ := tri_put (N := N) h0 le_rfl (by omega) 1 (by rw [hf]; exact (D_zero_zero t).symm)
  obtain ⟨L1, a1, b1⟩ := tri_put (N := N) (tri_next b0) (by omega) hN t (by
    rw [hf]; simp only [Nat.zero_add]; rw [D_sub 0, D_zero_zero]; simp)
  obtain ⟨L2, a2, b2⟩ := tri_put (N := N) b1 (by omega) hN 1 (by
    rw [hf]; simp only [Nat.zero_add]; rw [D_diag 0, D_zero_zero]; simp)
  have b3 := tri_next b2
  obtain ⟨L, hL, hI⟩ := foldlM_range_inv (fun L k => legendreOuter ((N + 1) * (N + 2) / 2) t L (k + 2))
    (fun k L => TriInv f (k + 2) 0 L) (N - 1) L2 b3 (by
      intro k hk L hL
      unfold legendreOuter
      have e1 : (k + 2) * (k + 2 - 1) / 2 = (k + 1) * (k + 1 + 1) / 2 := by
        rw [show k + 2 - 1 = k + 1 by omega]; congr 1; ring
      have e2 : (k + 2 - 1) * (k + 2 - 2) / 2 = k * (k + 1) / 2 := by
        rw [show k + 2 - 1 = k + 1 by omega, show k + 2 - 2 = k by omega]; congr 1; ring
      obtain ⟨L3, a3, b3⟩ := foldlM_range_inv (fun L m => do
          let a ← vget ((N + 1) * (N + 2) / 2) L ((k + 2) * (k + 2 - 1) / 2 + m)
          let b ← vget ((N + 1) * (N + 2) / 2) L ((k + 2 - 1) * (k + 2 - 2) / 2 + m)
          vput ((N + 1) * (N + 2) / 2) L ((k + 2) * (k + 2 + 1) / 2 + m)
            (((2 * (k + 2) - 1 : Nat) * t * a - (k + 2 + m - 1 : Nat) * b) / (k + 2 - m : Nat)))
        (fun m L => TriInv f (k + 2) m L) (k + 2 - 1) L hL (by
          intro m hm L hL
          rw [e1, e2, tri_get hL (show m ≤ k + 1 by omega) (by omega) (by omega), tri_get hL (show m ≤ k by omega) (by omega) (by omega)]
          simp only [Option.bind_eq_bind, Option.bind_some]
          refine tri_put hL (by omega) (by omega) _ ?_
          have hr := D_rec k m t
          have hkm : (((k + 2 - m : Nat) : ℝ)) = (k : ℝ) + 2 - m := by rw [Nat.cast_sub (by omega)]; push_cast; ring
          rw [hf, hkm, show 2 * (k + 2) - 1 = 2 * k + 3 by omega, show k + 2 + m - 1 = k + 1 + m by omega]
          have hne : (k : ℝ) + 2 - m ≠ 0 := by
            have : (m : ℝ) ≤ k := by exact_mod_cast (show m ≤ k by omega)
            linarith
          rw [div_eq_iff hne]
          push_cast
          linear_combination -hr)
      simp only [Option.bind_eq_bind] at a3
      simp only [Option.bind_eq_bind, a3, Option.bind_some]
      rw [show k + 2 - 1 = k + 1 by omega] at b3 ⊢
      rw [tri_get b3 (show k + 1 ≤ k + 1 from le_rfl) (by omega) (by omega)]
      simp only [Option.bind_some]
      obtain ⟨L4, a4, b4⟩ := tri_put (N := N) b3 (by omega) (by omega) (((2 * (k + 1) + 1 : Nat) : ℝ) * t * f (k + 1) (k + 1)) (by
        rw [hf]; simp only []
        rw [D_sub]; push_cast; ring)
      rw [a4]
      simp only [Option.bind_some]
      have e3 : (k + 2) * (k + 1) / 2 + (k + 2) - 1 = (k + 1) * (k + 1 + 1) / 2 + (k + 1) := by
        rw [show (k + 2) * (k + 1) = (k + 1) * (k + 1 + 1) by ring]; omega
      rw [e3, tri_get b4 (show k + 1 ≤ k + 1 from le_rfl) (by omega) (by omega)]
      simp only [Option.bind_some]
      obtain ⟨L5, a5, b5⟩ := tri_put (N := N) b4 (by omega) (by omega) (((2 * (k + 2) - 1 : Nat) : ℝ) * f (k + 1) (k + 1)) (by
        rw [hf]; simp only []
        rw [D_diag (k + 1), show 2 * (k + 2) - 1 = 2 * k + 3 by omega]; push_cast; ring)
      exact ⟨L5, a5, tri_next b5⟩)
  refine ⟨L, ?_, fun n m hm hn => ?_⟩
  · unfold legendreFull
    rw [show (0 : Nat) * (0 + 1) / 2 + 0 = 0 by rfl] at a0
    rw [show (0 + 1) * (0 + 1 + 1) / 2 + 0 = 1 by rfl] at a1
    rw [show (0 + 1) * (0 + 1 + 1) / 2 + (0 + 1) = 2 by rfl] at a2
    simp only [Option.bind_eq_bind, a0, a1, a2, Option.bind_some]
    exact hL
  · exact hI n m hm (Or.inl (by omega))

/-- C55: the table of degree 0 has one entry, and the code writes out of it. -/
theorem C55_legendre_zero (junk : Nat → ℝ) (t : ℝ) : legendreFull junk 0 t = none := by
  simp [legendreFull, vput]

/-- C55: the norming constant. -/
theorem C55_constant (n m : Nat) (h : m ≤ n) : constant m n = sphericalNorm n m := by
  induction m with
  | zero =>
    unfold constant sphericalNorm
    simp [Nat.factorial_ne_zero]
  | succ m ih =>
    have e : constant (m + 1) n = constant m n * (1 / Real.sqrt (((n + m + 1) * (n - m) : Nat) : ℝ)) := by
      unfold constant
      rw [List.range_succ, List.foldl_append]; rfl
    rw [e, ih (by omega)]
    have hn := norm_order n (m + 1) (by omega) h
    rw [show m + 1 - 1 = m by omega, show n - (m + 1) + 1 = n - m by omega] at hn
    rw [hn]
    have hp : 0 < (((n + m + 1) * (n - m) : Nat) : ℝ) := by
      have : 0 < (n + m + 1) * (n - m) := Nat.mul_pos (by omega) (by omega)
      exact_mod_cast this
    rw [show (((n + (m + 1) : Nat) : ℝ) * ((n - m : Nat) : ℝ)) = (((n + m + 1) * (n - m) : Nat) : ℝ) by push_cast; ring]
    have := Real.sqrt_pos.2 hp
    field_simp

/-! ## spherical harmonics -/

/-- The entries of the orders `b` and `-b` of degree `a` are filled, for the degrees below `n` and the orders below `j` of degree `n`. -/
def SqInv (g : Nat → Nat → Z) (n j : Nat) (st : (Nat → ℝ) × (Nat → ℝ)) : Prop :=
  ∀ a b, b ≤ a → (a < n ∨ (a = n ∧ b < j)) → (st.1 (a * a + a + b) = (g a b).1 ∧ st.2 (a * a + a + b) = (g a b).2) ∧
    (0 < b → st.1 (a * a + a - b) = (g a b).1 ∧ st.2 (a * a + a - b) = -(g a b).2)

theorem sq_lt {a b N : Nat} (hb : b ≤ a) (h : a ≤ N) : a * a + a + b < (N + 1) * (N + 1) := by
  nlinarith [Nat.mul_le_mul (show a + 1 ≤ N + 1 by omega) (show a + 1 ≤ N + 1 by omega)]

theorem sq_ne {a n b j : Nat} (hb : b ≤ a) (hj : j ≤ n) (h : a < n) : a * a + a + b < n * n + n - j := by
  have : (a + 1) * (a + 1) ≤ n * n := Nat.mul_le_mul h h
  have : (a + 1) * (a + 1) = a * a + 2 * a + 1 := by ring
  omega

theorem sq_get {g : Nat → Nat → Z} {n j N : Nat} {st : (Nat → ℝ) × (Nat → ℝ)} (h : SqInv g n j st) {a b : Nat} (hb : b ≤ a) (ha : a < n)
    (hN : a ≤ N) : vget ((N + 1) * (N + 1)) st.1 (a * a + a + b) = some (g a b).1 ∧
      vget ((N + 1) * (N + 1)) st.2 (a * a + a + b) = some (g a b).2 := by
  unfold vget
  rw [if_pos (sq_lt hb hN), if_pos (sq_lt hb hN), ((h a b hb (Or.inl ha)).1).1, ((h a b hb (Or.inl ha)).1).2]
  exact ⟨rfl, rfl⟩

theorem sq_store {g : Nat → Nat → Z} {n j N : Nat} {st : (Nat → ℝ) × (Nat → ℝ)} (h : SqInv g n j st) (hj : j ≤ n) (hN : n ≤ N) (z : Z)
    (hz : z = g n j) : ∃ st', storeBoth ((N + 1) * (N + 1)) n j z st = some st' ∧ SqInv g n (j + 1) st' := by
  have h1 := sq_lt hj hN
  have h2 : n * n + n - j < (N + 1) * (N + 1) := lt_of_le_of_lt (by omega) h1
  have hjn : j ≤ n * n + n := by nlinarith
  subst hz
  unfold storeBoth vput
  simp only [if_pos h1, if_pos h2, Option.bind_eq_bind, Option.bind_some]
  by_cases hj0 : j > 0
  · rw [if_pos hj0]
    refine ⟨_, rfl, ?_⟩
    intro a b hb hab
    by_cases e : a = n ∧ b = j
    · obtain ⟨rfl, rfl⟩ := e
      simp only [Function.update_apply]
      refine ⟨?_, fun _ => ?_⟩
      · have hne : a * a + a + b ≠ a * a + a - b := by omega
        simp [hne]
      · simp
    · have ho := h a b hb (by omega)
      have hb2 : b ≤ a * a + a := by nlinarith
      have n1 : a * a + a + b ≠ n * n + n + j ∧ a * a + a + b ≠ n * n + n - j := by
        rcases hab with hlt | ⟨rfl, hb'⟩
        · have := sq_ne hb hj hlt; omega
        · omega
      have n2 : a * a + a - b ≠ n * n + n + j ∧ a * a + a - b ≠ n * n + n - j := by
        rcases hab with hlt | ⟨rfl, hb'⟩
        · have := sq_ne hb hj hlt; omega
        · omega
      simp only [Function.update_apply, if_neg n1.1, if_neg n1.2, if_neg n2.1, if_neg n2.2]
      exact ho
  · rw [if_neg hj0]
    refine ⟨_, rfl, ?_⟩
    obtain rfl : j = 0 := by omega
    intro a b hb hab
    by_cases e : a = n ∧ b = 0
    · obtain ⟨rfl, rfl⟩ := e
      simp only [Function.update_apply]
      refine ⟨?_, fun h => by omega⟩
      simp
    · have ho := h a b hb (by omega)
      have hb2 : b ≤ a * a + a := by nlinarith
      have hlt : a < n := by omega
      have := sq_ne hb (Nat.zero_le n) hlt
      have n1 : a * a + a + b ≠ n * n + n + 0 := by omega
      have n2 : a * a + a - b ≠ n * n + n + 0 := by omega
      simp only [Function.update_apply, if_neg n1, if_neg n2]
      exact ho

theorem sq_next {g : Nat → Nat → Z} {n : Nat} {st : (Nat → ℝ) × (Nat → ℝ)} (h : SqInv g n (n + 1) st) : SqInv g (n + 1) 0 st := by
  intro a b hb hab
  exact h a b hb (by omega)

theorem prev_rec (y : V3) (k m : Nat) (h : m ≤ k) : sphericalPrev y m (k + 2) ((yy y (k + 1) m).1, (yy y k m).1)
    ((yy y (k + 1) m).2, (yy y k m).2) = yy y (k + 2) m := by
  have e := threeTerm_zz (cr (y 0) (y 1) m) (ci (y 0) (y 1) m) (y 2) k m h
  unfold sphericalPrev
  rw [if_neg (by omega), if_neg (by omega), if_neg (by omega)]
  change threeTerm (y 2) (k + 2) m (yy y k m) (yy y (k + 1) m) = yy y (k + 2) m at e
  rw [← e]
  unfold threeTerm
  have hkm : (((k + 2 - m : Nat) : ℝ)) = ((k + 2 : Nat) : ℝ) - m := by rw [Nat.cast_sub (by omega)]
  simp only [hkm, Nat.cast_add]

theorem prev_sub (y : V3) (k : Nat) (old : Z) : sphericalPrev y k (k + 1) ((yy y k k).1, old.1) ((yy y k k).2, old.2) = yy y (k + 1) k := by
  have e : second (y 2) k (yy y k k) = yy y (k + 1) k := second_zz _ _ _ _
  unfold sphericalPrev
  rw [if_neg (by omega), if_neg (by omega), if_pos rfl, ← e]
  unfold second
  simp only [Prod.mk.injEq]
  constructor <;> ring

theorem prev_diag (y : V3) (k : Nat) (old : Z) : sphericalPrev y (k + 1) (k + 1) ((yy y k k).1, old.1) ((yy y k k).2, old.2) =
    yy y (k + 1) (k + 1) := by
  have e : nextOrder y k (yy y k k) = yy y (k + 1) (k + 1) := nextOrder_zz _ _ _ _
  unfold sphericalPrev
  rw [if_neg (by omega), if_pos rfl, ← e]
  unfold nextOrder
  have e3 : (2 * ((k + 1 : Nat) : ℝ) + 1) = 2 * k + 3 := by push_cast; ring
  have e2 : (2 * ((k + 1 : Nat) : ℝ)) = 2 * k + 2 := by push_cast; ring
  rw [e3, e2]

theorem full_eq (junk : (Nat → ℝ) × (Nat → ℝ)) (old : Z) (x : V3) (hx : x ≠ 0) (N : Nat) (y : V3) (hy : y = (1 / ‖x‖) • x) :
    ∃ st, sphericalHarmonicsFull junk old x N = some st ∧ SqInv (yy y) (N + 1) 0 st := by
  unfold sphericalHarmonicsFull
  rw [if_neg hx]
  simp only [← hy]
  have h0 : SqInv (yy y) 0 0 junk := by intro a b _ h; omega
  obtain ⟨s0, a0, b0⟩ := sq_store (N := N) h0 le_rfl (by omega) (0.5 / Real.sqrt Real.pi, 0) (yy_start y)
  have hpos : 0 < (N + 1) * (N + 1) := by positivity
  have a0' : s0 = (Function.update junk.1 0 (0.5 / Real.sqrt Real.pi), Function.update junk.2 0 0) := by
    unfold storeBoth vput at a0
    simp [hpos] at a0
    exact a0.symm
  unfold vput
  simp only [if_pos hpos, Option.bind_eq_bind, Option.bind_some]
  rw [← a0']
  refine foldlM_range_inv (fun st k => fullOuter old y ((N + 1) * (N + 1)) st (k + 1)) (fun k st => SqInv (yy y) (k + 1) 0 st) N s0 (sq_next b0) ?_
  intro k hk st hst
  unfold fullOuter
  rw [show k + 1 - 1 = k by omega]
  obtain ⟨s1, a1, b1⟩ := foldlM_range_inv (fullInner y ((N + 1) * (N + 1)) (k + 1)) (fun m st => SqInv (yy y) (k + 1) m st) k st hst (by
    intro m hm st hst
    obtain ⟨j, rfl⟩ : ∃ j, k = j + 1 := ⟨k - 1, by omega⟩
    unfold fullInner
    have i1 : (j + 1 + 1 - 1) * (j + 1 + 1 - 1) + (j + 1 + 1) - 1 + m = (j + 1) * (j + 1) + (j + 1) + m := by
      rw [show j + 1 + 1 - 1 = j + 1 by omega]; omega
    have i2 : (j + 1 + 1 - 2) * (j + 1 + 1 - 2) + (j + 1 + 1) - 2 + m = j * j + j + m := by
      rw [show j + 1 + 1 - 2 = j by omega]; omega
    rw [i1, i2, (sq_get hst (show m ≤ j + 1 by omega) (by omega) (by omega)).1, (sq_get hst (show m ≤ j + 1 by omega) (by omega) (by omega)).2,
      (sq_get hst (show m ≤ j by omega) (by omega) (by omega)).1, (sq_get hst (show m ≤ j by omega) (by omega) (by omega)).2]
    simp only [Option.bind_eq_bind, Option.bind_some]
    exact sq_store hst (by omega) (by omega) _ (prev_rec y j m (by omega)))
  have i3 : (k + 1 - 1) * (k + 1 - 1) + (k + 1) - 1 + (k + 1) - 1 = k * k + k + k := by rw [show k + 1 - 1 = k by omega]; omega
  simp only [Option.bind_eq_bind, a1, Option.bind_some]
  obtain ⟨g1, g2⟩ := sq_get (N := N) b1 (show k ≤ k by omega) (by omega) (by omega)
  rw [g1, g2]
  simp only [Option.bind_some]
  obtain ⟨s2, a2, b2⟩ := sq_store (N := N) b1 (by omega) (by omega) _ (prev_sub y k old)
  rw [a2]
  simp only [Option.bind_some]
  rw [show k * k + (k + 1) - 1 + (k + 1) - 1 = k * k + k + k by omega]
  obtain ⟨g1, g2⟩ := sq_get (N := N) b2 (show k ≤ k by omega) (by omega) (by omega)
  rw [g1, g2]
  simp only [Option.bind_some]
  obtain ⟨s3, a3, b3⟩ := sq_store (N := N) b2 (by omega) (by omega) _ (prev_diag y k old)
  exact ⟨s3, a3, sq_next b3⟩

/-- The entry of degree `n` and order `m`. -/
def entry (n : Nat) (m : Int) : Nat := ((n : Int) * n + n + m).toNat

theorem entry_pos (n j : Nat) : entry n j = n * n + n + j := by
  unfold entry
  rw [show (n : Int) * n + n + (j : Int) = ((n * n + n + j : Nat) : Int) by push_cast; ring, Int.toNat_natCast]

theorem entry_neg (n j : Nat) (h : j ≤ n) : entry n (-(j : Int)) = n * n + n - j := by
  unfold entry
  rw [show (n : Int) * n + n + -(j : Int) = ((n * n + n - j : Nat) : Int) by rw [Nat.cast_sub (by nlinarith)]; push_cast; ring, Int.toNat_natCast]

theorem order_cases (n : Nat) (m : Int) (h : |m| ≤ n) : ∃ j : Nat, j ≤ n ∧ (m = j ∨ (0 < j ∧ m = -(j : Int))) := by
  refine ⟨m.natAbs, ?_, ?_⟩
  · have := Int.natCast_natAbs m; omega
  · omega

theorem sq_entry {y : V3} {N : Nat} {st : (Nat → ℝ) × (Nat → ℝ)} (h : SqInv (yy y) (N + 1) 0 st) (n : Nat) (hn : n ≤ N) (m : Int) (hm : |m| ≤ n) :
    st.1 (entry n m) = (harmonic n m y).re ∧ st.2 (entry n m) = (harmonic n m y).im := by
  obtain ⟨j, hj, rfl | ⟨h0, rfl⟩⟩ := order_cases n m hm
  · have := (h n j hj (Or.inl (by omega))).1
    rw [entry_pos, this.1, this.2, yy_re, yy_im]
    unfold harmonic
    rw [if_pos (by omega), Int.natAbs_natCast]
    exact ⟨rfl, rfl⟩
  · have := (h n j hj (Or.inl (by omega))).2 h0
    rw [entry_neg n j hj, this.1, this.2, yy_re, yy_im]
    unfold harmonic
    rw [if_neg (by omega), Int.natAbs_neg, Int.natAbs_natCast]
    exact ⟨rfl, rfl⟩

/-- C55: the table of the spherical harmonics of degree at most `N` at `x/|x|`, `x ≠ 0`, in the documented ordering. -/
theorem C55_full (junk : (Nat → ℝ) × (Nat → ℝ)) (old : Z) (x : V3) (hx : x ≠ 0) (N : Nat) : ∃ st,
    sphericalHarmonicsFull junk old x N = some st ∧ ∀ n ≤ N, ∀ m : Int, |m| ≤ n →
      st.1 (entry n m) = (harmonic n m ((1 / ‖x‖) • x)).re ∧ st.2 (entry n m) = (harmonic n m ((1 / ‖x‖) • x)).im := by
  obtain ⟨st, h1, h2⟩ := full_eq junk old x hx N _ rfl
  exact ⟨st, h1, fun n hn m hm => sq_entry h2 n hn m hm⟩

/-! ## gradients -/

theorem mulW_iter (x : V3) (k j : Nat) (a b : ℝ) : (List.range k).foldl (fun (z : Z × Z) _ => (mulW x z.1, mulW x z.2))
    ((a * cr (x 0) (x 1) 0, a * ci (x 0) (x 1) 0), (b * cr (x 0) (x 1) j, b * ci (x 0) (x 1) j)) =
    ((a * cr (x 0) (x 1) k, a * ci (x 0) (x 1) k), (b * cr (x 0) (x 1) (j + k), b * ci (x 0) (x 1) (j + k))) := by
  induction k with
  | zero => rfl
  | succ k ih =>
    rw [List.range_succ, List.foldl_append, ih]
    simp only [List.foldl_cons, List.foldl_nil, mulW, ← add_assoc, cr_succ, ci_succ]
    refine Prod.ext (Prod.ext ?_ ?_) (Prod.ext ?_ ?_) <;> simp only [] <;> ring

theorem dsph_eq (x : V3) (n m N : Nat) (hm : m ≤ n) (hn : n ≤ N) (L : Nat → ℝ)
    (hL : ∀ n m, m ≤ n → n ≤ N → L (n * (n + 1) / 2 + m) = legendreDeriv n m (x 2)) : ∃ z, dsphericalPrev x m n ((N + 1) * (N + 2) / 2) L = some z ∧
      z.1.1 = q n m (x 2) * m * cr (x 0) (x 1) (m - 1) ∧ z.2.1.1 = -(q n m (x 2) * m * ci (x 0) (x 1) (m - 1)) ∧
      z.2.2.1 = sphericalNorm n m * legendreDeriv n (m + 1) (x 2) * cr (x 0) (x 1) m := by
  have hI : TriInv (fun n m => legendreDeriv n m (x 2)) (N + 1) 0 L := by
    intro a b hb hab; exact hL a b hb (by omega)
  have hg : ∀ j, legendreAt ((N + 1) * (N + 2) / 2) L n j = some (legendreDeriv n j (x 2)) := by
    intro j
    unfold legendreAt
    split
    · rename_i h; rw [D_zero h]
    · rw [tri_get hI (by omega) (by omega) hn]
  unfold dsphericalPrev
  have h1 := hg 1
  by_cases h0 : m = 0
  · subst h0
    simp only [if_true, h1, Option.bind_eq_bind, Option.bind_some]
    refine ⟨_, rfl, ?_, ?_, ?_⟩ <;> simp [C55_constant n 0 hm, cr_zero]
    ring
  · simp only [if_neg h0, hg m, hg (m + 1), Option.bind_eq_bind, Option.bind_some]
    have e := mulW_iter x (m - 1) 1 (legendreDeriv n m (x 2)) (legendreDeriv n (m + 1) (x 2))
    have e0 : ((legendreDeriv n m (x 2) * cr (x 0) (x 1) 0, legendreDeriv n m (x 2) * ci (x 0) (x 1) 0) : Z) = (legendreDeriv n m (x 2), 0) := by
      rw [cr_zero, ci_zero, mul_one, mul_zero]
    have e1 : ((legendreDeriv n (m + 1) (x 2) * cr (x 0) (x 1) 1, legendreDeriv n (m + 1) (x 2) * ci (x 0) (x 1) 1) : Z) =
        mulW x (legendreDeriv n (m + 1) (x 2), 0) := by
      unfold mulW
      rw [show (1 : Nat) = 0 + 1 by rfl, cr_succ, ci_succ, cr_zero, ci_zero]
      refine Prod.ext ?_ ?_ <;> simp only [] <;> ring
    rw [e0, e1] at e
    rw [e, show 1 + (m - 1) = m by omega]
    refine ⟨_, rfl, ?_, ?_, ?_⟩ <;> simp only [C55_constant n m hm, q] <;> ring

/-- The derivative of `|z|^n g(z/|z|)`. -/
theorem solid_deriv (g : V3 → ℝ) (n : Nat) (y : V3) (hy : y ≠ 0) (G : V3 →L[ℝ] ℝ) (hG : HasFDerivAt g G ((1 / ‖y‖) • y)) : ∃ L : V3 →L[ℝ] ℝ,
    HasFDerivAt (fun z => ‖z‖ ^ n * g ((1 / ‖z‖) • z)) L y ∧ ∀ v, L v = n * ‖y‖ ^ (n - 1) * (inner ℝ y v / ‖y‖) * g ((1 / ‖y‖) • y) +
      ‖y‖ ^ n * (G v / ‖y‖ - inner ℝ y v / ‖y‖ ^ 3 * G y) := by
  have hr : ‖y‖ ≠ 0 := norm_ne_zero_iff.2 hy
  have h1 : HasFDerivAt (fun z : V3 => ‖z‖) ((1 / ‖y‖) • innerSL ℝ y) y := by
    have := Radial.hasFDerivAt_dist 0 y hy
    simpa using this
  have h2 : HasFDerivAt (fun z : V3 => ‖z‖⁻¹) _ y := HasDerivAt.comp_hasFDerivAt y (_root_.hasDerivAt_inv hr) h1
  have h3 : HasFDerivAt (fun z : V3 => ‖z‖⁻¹ • z) _ y := h2.smul (hasFDerivAt_id y)
  have e : ∀ z : V3, (1 / ‖z‖) • z = ‖z‖⁻¹ • z := fun z => by rw [one_div]
  rw [e] at hG
  simp only [e]
  have h4 : HasFDerivAt (fun z : V3 => g (‖z‖⁻¹ • z)) _ y :=
    HasFDerivAt.comp (f := fun z : V3 => ‖z‖⁻¹ • z) y hG h3
  refine ⟨_, (h1.pow n).mul h4, fun v => ?_⟩
  simp
  field_simp
  ring

theorem inner3 (a v : V3) : inner ℝ a v = a 0 * v 0 + a 1 * v 1 + a 2 * v 2 := by
  simp [PiLp.inner_apply, Fin.sum_univ_three]; ring

theorem norm3 (a : V3) : ‖a‖ * ‖a‖ = a 0 * a 0 + a 1 * a 1 + a 2 * a 2 := by
  rw [← real_inner_self_eq_norm_mul_norm, inner3]

/-- The entries written for degree `n` and order `m ≥ 0` are the partial derivatives of `|z|^n Re Y_n^m(z/|z|)`. -/
theorem dsolid_entry (y : V3) (hy : y ≠ 0) (n m N : Nat) (hm : m ≤ n) (hn : n ≤ N) (L : Nat → ℝ) (b : ℝ)
    (hL : ∀ n m, m ≤ n → n ≤ N → L (n * (n + 1) / 2 + m) = legendreDeriv n m (((1 / ‖y‖) • y) 2)) : ∃ z,
      dsolidSphericalPrev y m n ((N + 1) * (N + 2) / 2) L (harmonicPos n m ((1 / ‖y‖) • y)).re b = some z ∧ ∃ D : V3 →L[ℝ] ℝ,
        HasFDerivAt (fun z => ‖z‖ ^ n * (harmonicPos n m ((1 / ‖z‖) • z)).re) D y ∧ ∀ v, D v = z.1.1 * v 0 + z.2.1.1 * v 1 + z.2.2.1 * v 2 := by
  obtain ⟨w, hw, w0, w1, w2⟩ := dsph_eq ((1 / ‖y‖) • y) n m N hm hn L hL
  obtain ⟨G, hG, hGv⟩ := harmonicPos_deriv n m ((1 / ‖y‖) • y)
  obtain ⟨D, hD, hDv⟩ := solid_deriv (fun z => (harmonicPos n m z).re) n y hy G hG
  unfold dsolidSphericalPrev
  simp only [hw, Option.bind_eq_bind, Option.bind_some]
  refine ⟨_, rfl, D, hD, fun v => ?_⟩
  have hG' : ∀ v, G v = w.1.1 * v 0 + w.2.1.1 * v 1 + w.2.2.1 * v 2 := by
    intro v; rw [hGv, w0, w1, w2]; ring
  rw [hDv, hG', hG']
  generalize (harmonicPos n m ((1 / ‖y‖) • y)).re = g
  have hr : ‖y‖ ≠ 0 := norm_ne_zero_iff.2 hy
  have h3 := norm3 y
  have hrn3 : (if n > 3 then ‖y‖ ^ (n - 3) else if n = 3 then 1 else (1 / ‖y‖) ^ (3 - n)) = ‖y‖ ^ n / ‖y‖ ^ 3 := by
    rw [eq_div_iff (pow_ne_zero _ hr)]
    split
    · rw [← pow_add]; congr 1; omega
    · split
      · rename_i h; rw [h, one_mul]
      · have : n = 0 ∨ n = 1 ∨ n = 2 := by omega
        rcases this with rfl | rfl | rfl <;> simp <;> field_simp
  have hnr : (if n = 0 then (0 : ℝ) else if n = 1 then 1 else n * ‖y‖ ^ (n - 1)) = n * ‖y‖ ^ (n - 1) := by
    split
    · rename_i h; rw [h]; simp
    · split
      · rename_i h; rw [h]; simp
      · rfl
  rw [hrn3, hnr]
  unfold functionalMatrix
  simp only [inner3, PiLp.smul_apply, smul_eq_mul, show ¬ (0 : Fin 3) = 1 by decide, show ¬ (0 : Fin 3) = 2 by decide,
    show ¬ (1 : Fin 3) = 0 by decide, show ¬ (1 : Fin 3) = 2 by decide, show ¬ (2 : Fin 3) = 0 by decide, show ¬ (2 : Fin 3) = 1 by decide,
    if_true, if_false, show min (0 : Fin 3) 1 = 0 by decide, show min (0 : Fin 3) 2 = 0 by decide, show min (1 : Fin 3) 0 = 0 by decide,
    show min (1 : Fin 3) 2 = 1 by decide, show min (2 : Fin 3) 0 = 0 by decide, show min (2 : Fin 3) 1 = 1 by decide,
    show max (0 : Fin 3) 1 = 1 by decide, show max (0 : Fin 3) 2 = 2 by decide, show max (1 : Fin 3) 0 = 1 by decide,
    show max (1 : Fin 3) 2 = 2 by decide, show max (2 : Fin 3) 0 = 2 by decide, show max (2 : Fin 3) 1 = 2 by decide]
  generalize w.1.1 = p0
  generalize w.2.1.1 = p1
  generalize w.2.2.1 = p2
  generalize (n : ℝ) * ‖y‖ ^ (n - 1) = c
  generalize ‖y‖ ^ n = e
  generalize y 0 = y0 at h3 ⊢
  generalize y 1 = y1 at h3 ⊢
  generalize y 2 = y2 at h3 ⊢
  generalize v 0 = v0
  generalize v 1 = v1
  generalize v 2 = v2
  generalize ‖y‖ = r at h3 hr ⊢
  field_simp
  ring

/-- The entries of one row. -/
def RowInv1 (g : Nat → Nat → ℝ) (n j : Nat) (r : Nat → ℝ) : Prop :=
  ∀ a b, b ≤ a → (a < n ∨ (a = n ∧ b < j)) → r (a * a + a + b) = g a b ∧ r (a * a + a - b) = g a b

theorem row_store {g : Nat → Nat → ℝ} {n j N : Nat} {r : Nat → ℝ} (h : RowInv1 g n j r) (hj : j ≤ n) (hN : n ≤ N) (z : ℝ) (hz : z = g n j) :
    ∃ r', storeRow ((N + 1) * (N + 1)) n j r z = some r' ∧ RowInv1 g n (j + 1) r' := by
  have h1 := sq_lt hj hN
  have h2 : n * n + n - j < (N + 1) * (N + 1) := lt_of_le_of_lt (by omega) h1
  have hjn : j ≤ n * n + n := by nlinarith
  subst hz
  unfold storeRow vput
  simp only [if_pos h1, if_pos h2, Option.bind_eq_bind, Option.bind_some]
  have main : RowInv1 g n (j + 1) (Function.update (Function.update r (n * n + n + j) (g n j)) (n * n + n - j) (g n j)) := by
    intro a b hb hab
    by_cases e : a = n ∧ b = j
    · obtain ⟨rfl, rfl⟩ := e
      simp only [Function.update_apply]
      simp
    · have ho := h a b hb (by omega)
      have hb2 : b ≤ a * a + a := by nlinarith
      have n1 : a * a + a + b ≠ n * n + n + j ∧ a * a + a + b ≠ n * n + n - j := by
        rcases hab with hlt | ⟨rfl, hb'⟩
        · have := sq_ne hb hj hlt; omega
        · omega
      have n2 : a * a + a - b ≠ n * n + n + j ∧ a * a + a - b ≠ n * n + n - j := by
        rcases hab with hlt | ⟨rfl, hb'⟩
        · have := sq_ne hb hj hlt; omega
        · omega
      simp only [Function.update_apply, if_neg n1.1, if_neg n1.2, if_neg n2.1, if_neg n2.2]
      exact ho
  by_cases hj0 : j > 0
  · rw [if_pos hj0]
    exact ⟨_, rfl, main⟩
  · rw [if_neg hj0]
    refine ⟨_, rfl, ?_⟩
    obtain rfl : j = 0 := by omega
    simpa using main

/-- C55: at `x ≠ 0`, given the table of the spherical harmonics at `x/|x|`, the rows of the result are the partial derivatives of the
solid harmonics `|z|^n Re Y_n^m(z/|z|)` at `x`, for all degrees at most `N`, `N ≥ 1`, whatever the initial contents. -/
theorem C55_gradient (junk : Nat → ℝ) (junkR : (Nat → ℝ) × (Nat → ℝ) × (Nat → ℝ)) (x : V3) (hx : x ≠ 0) (N : Nat) (hN : 1 ≤ N)
    (junk' : (Nat → ℝ) × (Nat → ℝ)) (old : Z) : ∃ val rows, sphericalHarmonicsFull junk' old x N = some val ∧
      dsolidHarmonicsFull junk junkR x N val = some rows ∧ ∀ n ≤ N, ∀ m : Int, |m| ≤ n → ∃ D : V3 →L[ℝ] ℝ,
        HasFDerivAt (fun z => ‖z‖ ^ n * (harmonic n m ((1 / ‖z‖) • z)).re) D x ∧
        ∀ v, D v = rows.1 (entry n m) * v 0 + rows.2.1 (entry n m) * v 1 + rows.2.2 (entry n m) * v 2 := by
  obtain ⟨val, hval, hsq⟩ := full_eq junk' old x hx N _ rfl
  obtain ⟨L, hL, hLe⟩ := C55_legendre junk N hN (x 2 / ‖x‖)
  have ht : ((1 / ‖x‖) • x) 2 = x 2 / ‖x‖ := by simp; ring
  rw [← ht] at hLe
  choose! z hz D hD hDv using fun n m (hm : m ≤ n) (hn : n ≤ N) => dsolid_entry x hx n m N hm hn L (harmonicPos n m ((1 / ‖x‖) • x)).im hLe
  have hgoal : ∃ rows, dsolidHarmonicsFull junk junkR x N val = some rows ∧
      (RowInv1 (fun n m => (z n m).1.1) (N + 1) 0 rows.1 ∧ RowInv1 (fun n m => (z n m).2.1.1) (N + 1) 0 rows.2.1 ∧
        RowInv1 (fun n m => (z n m).2.2.1) (N + 1) 0 rows.2.2) := by
    unfold dsolidHarmonicsFull
    simp only [hL, Option.bind_eq_bind, Option.bind_some]
    refine foldlM_range_inv _ (fun k rows => RowInv1 (fun n m => (z n m).1.1) k 0 rows.1 ∧ RowInv1 (fun n m => (z n m).2.1.1) k 0 rows.2.1 ∧
        RowInv1 (fun n m => (z n m).2.2.1) k 0 rows.2.2) (N + 1) junkR ?_ ?_
    · refine ⟨?_, ?_, ?_⟩ <;> · intro a b _ h; omega
    · intro n hn rows hrows
      obtain ⟨rows', h1, h2⟩ := foldlM_range_inv (fun st m =>
          (vget ((N + 1) * (N + 1)) val.1 (n * n + n + m)).bind fun a => (vget ((N + 1) * (N + 1)) val.2 (n * n + n + m)).bind fun b =>
          (dsolidSphericalPrev x m n ((N + 1) * (N + 2) / 2) L a b).bind fun z =>
          (storeRow ((N + 1) * (N + 1)) n m st.1 z.1.1).bind fun r0 => (storeRow ((N + 1) * (N + 1)) n m st.2.1 z.2.1.1).bind fun r1 =>
          (storeRow ((N + 1) * (N + 1)) n m st.2.2 z.2.2.1).bind fun r2 => some (r0, r1, r2))
        (fun m rows => RowInv1 (fun n m => (z n m).1.1) n m rows.1 ∧ RowInv1 (fun n m => (z n m).2.1.1) n m rows.2.1 ∧
          RowInv1 (fun n m => (z n m).2.2.1) n m rows.2.2) (n + 1) rows hrows (by
          intro m hm rows hrows
          obtain ⟨g1, g2⟩ := sq_get (N := N) hsq (show m ≤ n by omega) (by omega) (by omega)
          rw [g1, g2, yy_re, yy_im]
          simp only [Option.bind_some, hz n m (by omega) (by omega)]
          obtain ⟨r0, a0, b0⟩ := row_store (N := N) hrows.1 (show m ≤ n by omega) (by omega) _ rfl
          obtain ⟨r1, a1, b1⟩ := row_store (N := N) hrows.2.1 (show m ≤ n by omega) (by omega) _ rfl
          obtain ⟨r2, a2, b2⟩ := row_store (N := N) hrows.2.2 (show m ≤ n by omega) (by omega) _ rfl
          rw [a0, a1, a2]
          exact ⟨_, rfl, b0, b1, b2⟩)
      refine ⟨rows', h1, ?_⟩
      refine ⟨?_, ?_, ?_⟩
      · intro a b hb hab; exact h2.1 a b hb (by omega)
      · intro a b hb hab; exact h2.2.1 a b hb (by omega)
      · intro a b hb hab; exact h2.2.2 a b hb (by omega)
  obtain ⟨rows, hrows, i0, i1, i2⟩ := hgoal
  refine ⟨val, rows, hval, hrows, fun n hn m hm => ?_⟩
  obtain ⟨j, hj, hmj⟩ := order_cases n m hm
  have hre : ∀ y, (harmonic n m y).re = (harmonicPos n j y).re := by
    intro y
    rcases hmj with rfl | ⟨h0, rfl⟩
    · unfold harmonic; rw [if_pos (by omega), Int.natAbs_natCast]
    · unfold harmonic; rw [if_neg (by omega), Int.natAbs_neg, Int.natAbs_natCast, Complex.conj_re]
  simp only [hre]
  refine ⟨D n j, hD n j hj hn, fun v => ?_⟩
  have j0 := i0 n j hj (Or.inl (by omega))
  have j1 := i1 n j hj (Or.inl (by omega))
  have j2 := i2 n j hj (Or.inl (by omega))
  rcases hmj with rfl | ⟨h0, rfl⟩
  · rw [entry_pos, j0.1, j1.1, j2.1, hDv n j hj hn]
  · rw [entry_neg n j hj, j0.2, j1.2, j2.2, hDv n j hj hn]

/-! ## the hypotheses can be met -/

example : ∃ (x : V3) (cs : List ℝ), ‖x‖ = 1 ∧ x ≠ 0 ∧ (1 + 3) * (1 + 3) ≤ cs.length ∧ SymmetricCoefficients 4 cs ∧
    coefficient cs 3 3 ≠ 0 ∧ ∃ r, evaluateSphericals x cs 4 = some r := by
  have hs : SymmetricCoefficients 4 (List.replicate 16 (1 : ℝ)) := by
    intro n hn m h1 h2
    have key : ∀ m : Int, -(n : Int) ≤ m → m ≤ n → coefficient (List.replicate 16 (1 : ℝ)) n m = 1 := by
      intro m h1 h2
      unfold coefficient
      rw [List.getD_eq_getElem?_getD, List.getElem?_replicate, if_pos]
      · rfl
      have h : n = 0 ∨ n = 1 ∨ n = 2 ∨ n = 3 := by omega
      rcases h with rfl | rfl | rfl | rfl <;> omega
    rw [key m h1 h2, key (-m) (by omega) (by omega)]
  have hx : ‖(EuclideanSpace.single 0 1 : V3)‖ = 1 := by simp
  refine ⟨EuclideanSpace.single 0 1, List.replicate 16 1, hx, ?_, by simp, hs, ?_, ?_⟩
  · intro h; rw [h] at hx; simp at hx
  · simp [coefficient]
  · obtain ⟨r, h, _⟩ := C55_sphericals_symmetric (EuclideanSpace.single 0 1) (List.replicate 16 1) 4 hx (by omega) (by simp) hs
    exact ⟨r, h⟩

end Bembel.Props
