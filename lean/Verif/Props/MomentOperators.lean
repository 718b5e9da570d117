import Verif.Spec.MomentOperators
import Verif.Props.Moments
import Verif.Props.Operators
/-! # C42: the moment matrices of the operators -/

set_option linter.unusedSectionVars false

namespace Bembel.Props
open Finset Mesh H2 Spec Basis

/-- The three basic moment matrices at once: `g` is the shape function or `2 ^ M` times a partial derivative. -/
theorem basic_moments {V : Type} (near : V → V → Bool) (corner : Nat → Nat → V) (P M : Nat) (hP : 0 < P) (E : MomentEnv)
    (junkE junkT : Nat → Nat → ℝ) (p np : Nat) (hx : Distinct (E.pts np) np) (t : Mesh.Tree ℝ)
    (ht : initElementTree near corner P M = some t) (r : Nat) (hr : r ≤ M) (A : EMat ℝ) (g : Nat → ℝ × ℝ → ℝ)
    (hA : (A = moment E p (M - r) r np ∧ g = shape p) ∨
      (A = momentDx E p (M - r) r np ∧ g = fun m s => 2 ^ M * shapeDx p m s) ∨
      (A = momentDy E p (M - r) r np ∧ g = fun m s => 2 ^ M * shapeDy p m s)) :
    ∀ l n, l + n + r = M → ∀ a, IsNode P l a → ∀ L, clusterElements t a = some L → ∀ k b, L[k]? = some b →
    k < 4 ^ (r + n) ∧ ∀ s < np * np, ∀ m < (p + 1) * (p + 1),
      clusterBasis (np * np) ((p + 1) * (p + 1) * 4 ^ r) A (computeTransferMatrices E.pts junkE junkT np) n
        s ((p + 1) * (p + 1) * k + m) =
      momentQuad t (E.GL (gaussIndex np p)) (E.pts np) np a b s (g m) := by
  intro l n hl a ha L hL k b hk
  have hh : getH t b * 2 ^ M = 1 := by
    obtain ⟨t', h1, h2, h3, h4, h5, h6, h7⟩ := tree_facts (K := ℝ) near corner P M hP
    obtain rfl : t = t' := Option.some.inj (ht.symm.trans h1)
    obtain ⟨t', e1, e2⟩ := C25_cluster_range (K := ℝ) near corner P M hP
    obtain rfl : t = t' := Option.some.inj (ht.symm.trans e1)
    obtain ⟨L', k1, k2, -⟩ := e2 l a (by omega) ha
    obtain rfl : L = L' := Option.some.inj (hL.symm.trans k1)
    obtain ⟨path, q1, q2, rfl⟩ := (k2 b).1 (List.mem_of_getElem? hk)
    have hb : IsNode P M (a.1, path ++ a.2) := ⟨ha.1, by simp [q1, ha.2.1]; omega, by
      intro x hx
      rcases List.mem_append.1 hx with h | h
      · exact q2 x h
      · exact ha.2.2 x h⟩
    have hlev : t.level (a.1, path ++ a.2) = M := by
      have := (h2 M (by omega) _ (mem_leaves.2 hb)).2.1
      rw [this]; exact hb.2.1
    unfold getH
    rw [hlev]
    field_simp
  have hk4 : k < 4 ^ (r + n) := by
    obtain ⟨t', e1, e2⟩ := C42_moments near corner P M hP E junkE junkT p np hx
    obtain rfl : t = t' := Option.some.inj (ht.symm.trans e1)
    obtain ⟨L', k1, k2, k3⟩ := e2 l n r hl a ha
    obtain rfl : L = L' := Option.some.inj (hL.symm.trans k1)
    rw [← k2]
    exact (List.getElem?_eq_some_iff.1 hk).1
  refine ⟨hk4, ?_⟩
  intro s hs m hm
  have hnp : 0 < np := Nat.pos_of_ne_zero fun h => by simp [h] at hs
  have hs1 : s / np < np := Nat.div_lt_of_lt_mul hs
  have hs2 : s % np < np := Nat.mod_lt _ hnp
  have hm' := divmod_le hm
  have es : s = s / np * np + s % np := (Nat.div_add_mod' s np).symm
  have em : m = m / (p + 1) * (p + 1) + m % (p + 1) := (Nat.div_add_mod' m (p + 1)).symm
  have aux : ∀ X D : ℝ, X * D = getH t b * (X * (2 ^ M * D)) := fun X D => by linear_combination - X * D * hh
  rcases hA with ⟨rfl, rfl⟩ | ⟨rfl, rfl⟩ | ⟨rfl, rfl⟩
  · obtain ⟨t', e1, e2⟩ := C42_moments near corner P M hP E junkE junkT p np hx
    obtain rfl : t = t' := Option.some.inj (ht.symm.trans e1)
    obtain ⟨L', k1, k2, k3⟩ := e2 l n r hl a ha
    obtain rfl : L = L' := Option.some.inj (hL.symm.trans k1)
    have := k3 k b hk (s / np) hs1 (s % np) hs2 (m % (p + 1)) hm'.1 (m / (p + 1)) hm'.2
    rw [← es, ← em] at this
    rw [this]
    rfl
  · obtain ⟨t', e1, e2⟩ := C42_moments_dx near corner P M hP E junkE junkT p np hx
    obtain rfl : t = t' := Option.some.inj (ht.symm.trans e1)
    obtain ⟨L', k1, k2, k3⟩ := e2 l n r hl a ha
    obtain rfl : L = L' := Option.some.inj (hL.symm.trans k1)
    have := k3 k b hk (s / np) hs1 (s % np) hs2 (m % (p + 1)) hm'.1 (m / (p + 1)) hm'.2
    rw [← es, ← em] at this
    rw [this]
    unfold momentQuad
    rw [mul_sum]
    refine sum_congr rfl fun q _ => ?_
    rw [mul_sum]
    refine sum_congr rfl fun q' _ => ?_
    simp only [shapeDx_eq, bern]
    exact aux _ _
  · obtain ⟨t', e1, e2⟩ := C42_moments_dy near corner P M hP E junkE junkT p np hx
    obtain rfl : t = t' := Option.some.inj (ht.symm.trans e1)
    obtain ⟨L', k1, k2, k3⟩ := e2 l n r hl a ha
    obtain rfl : L = L' := Option.some.inj (hL.symm.trans k1)
    have := k3 k b hk (s / np) hs1 (s % np) hs2 (m % (p + 1)) hm'.1 (m / (p + 1)) hm'.2
    rw [← es, ← em] at this
    rw [this]
    unfold momentQuad
    rw [mul_sum]
    refine sum_congr rfl fun q _ => ?_
    rw [mul_sum]
    refine sum_congr rfl fun q' _ => ?_
    simp only [shapeDy_eq, bern]
    exact aux _ _

theorem vcat2_fst (A B : EMat ℝ) (i j : Nat) (h : i < A.rows) : (vcat2 A B).at' i j = A.at' i j := by
  simp [vcat2, h]

theorem vcat2_snd (A B : EMat ℝ) (i j k : Nat) (h : k = A.rows + i) : (vcat2 A B).at' k j = B.at' i j := by
  subst h; simp [vcat2]

theorem moment_size (E : MomentEnv) (p cl r np : Nat) :
    ((moment E p cl r np).rows = np * np ∧ (moment E p cl r np).cols = (p + 1) * (p + 1) * 4 ^ r) ∧
    ((momentDx E p cl r np).rows = np * np ∧ (momentDx E p cl r np).cols = (p + 1) * (p + 1) * 4 ^ r) ∧
    ((momentDy E p cl r np).rows = np * np ∧ (momentDy E p cl r np).cols = (p + 1) * (p + 1) * 4 ^ r) := by
  have e : 2 ^ r * (p + 1) * (2 ^ r * (p + 1)) = (p + 1) * (p + 1) * 4 ^ r := by
    rw [show (4 : Nat) = 2 * 2 from rfl, Nat.mul_pow]; ring
  exact ⟨⟨rfl, e⟩, ⟨rfl, e⟩, ⟨rfl, e⟩⟩

/-- A moment matrix that is composed of blocks of the three basic matrices. -/
theorem moments_of_blocks (vd nc : Nat) (T : (P M d a i : Nat) → ℝ × ℝ → ℝ) (mom : MomentEnv → (p cl r np : Nat) → List (EMat ℝ))
    (h : ∀ E p cl r np, ∀ d < vd, ∃ A, (mom E p cl r np)[d]? = some A ∧ A.rows = nc * (np * np) ∧
      A.cols = (p + 1) * (p + 1) * 4 ^ r ∧ ∀ α < nc, ∃ A', (∀ i < np * np, ∀ s, A.at' (α * (np * np) + i) s = A'.at' i s) ∧
      ∀ M, (A' = moment E p cl r np ∧ T p M d α = shape p) ∨
        (A' = momentDx E p cl r np ∧ T p M d α = fun m s => 2 ^ M * shapeDx p m s) ∨
        (A' = momentDy E p cl r np ∧ T p M d α = fun m s => 2 ^ M * shapeDy p m s)) : MomentsFor vd nc T mom := by
  intro V near corner P M hP E junkE junkT p np hx t ht r hr d hd
  obtain ⟨A, h1, h2, h3, h4⟩ := h E p (M - r) r np d hd
  refine ⟨A, h1, h2, h3, ?_⟩
  intro l n hl a ha L hL k b hk α hα s hs m hm
  obtain ⟨A', h5, h6⟩ := h4 α hα
  obtain ⟨hk4, h7⟩ := basic_moments near corner P M hP E junkE junkT p np hx t ht r hr A' (T p M d α) (h6 M) l n hl a ha L hL k b hk
  rw [← h7 s hs m hm]
  have hpos : 0 < (p + 1) * (p + 1) * 4 ^ r := by positivity
  refine nested_component (np * np) _ A' A _ α ((p + 1) * (p + 1) * 4 ^ r) (fun i hi s _ => h5 i hi s) hpos le_rfl n s hs _ ?_
  calc (p + 1) * (p + 1) * k + m < (p + 1) * (p + 1) * (k + 1) := Nat.add_lt_add_left hm _
    _ ≤ (p + 1) * (p + 1) * 4 ^ (r + n) := Nat.mul_le_mul_left _ hk4
    _ = _ := by rw [pow_add]; ring

/-- C42: the moment matrices of the operators.  Single and double layer operators: the shape functions in each of the `vd`
components; Laplace hypersingular operator: the two partial derivatives; Helmholtz hypersingular operator: value and partial
derivatives; Maxwell single layer operator: value and the derivative in the direction of the component.  These are the functions
contracted with the far field kernels in `C52_scalar`, `C52_laplaceHyp`, `C52_helmholtzHyp`, `C52_maxwell`. -/
theorem C42_operators : (∀ vd, MomentsFor vd 1 valueT fun E p cl r np => compute2DMoment E vd p cl r np) ∧
    MomentsFor 1 2 gradT compute2DMomentLaplaceHyp ∧ MomentsFor 1 3 valueGradT compute2DMomentHelmholtzHyp ∧
    MomentsFor 2 2 divT compute2DMomentMaxwell := by
  refine ⟨fun vd => ?_, ?_, ?_, ?_⟩
  · refine moments_of_blocks _ _ _ _ fun E p cl r np d hd => ?_
    have hz := moment_size E p cl r np
    refine ⟨moment E p cl r np, by simp [compute2DMoment, hd], by rw [hz.1.1]; ring, hz.1.2, fun α hα => ?_⟩
    obtain rfl : α = 0 := by omega
    exact ⟨moment E p cl r np, fun i _ s => by simp, fun M => Or.inl ⟨rfl, by funext m; rfl⟩⟩
  · refine moments_of_blocks _ _ _ _ fun E p cl r np d hd => ?_
    obtain ⟨⟨a1, a2⟩, ⟨b1, b2⟩, c1, c2⟩ := moment_size E p cl r np
    obtain rfl : d = 0 := by omega
    refine ⟨_, rfl, by show _ + _ = _; rw [b1, c1]; ring, b2, fun α hα => ?_⟩
    rcases (by omega : α = 0 ∨ α = 1) with rfl | rfl
    · exact ⟨momentDx E p cl r np, fun i hi s => by rw [vcat2_fst _ _ _ _ (by rw [b1]; omega)]; simp,
        fun M => Or.inr (Or.inl ⟨rfl, by funext m s; simp [gradT]⟩)⟩
    · exact ⟨momentDy E p cl r np, fun i hi s => by rw [vcat2_snd _ _ i _ _ (by rw [b1]; omega)],
        fun M => Or.inr (Or.inr ⟨rfl, by funext m s; simp [gradT]⟩)⟩
  · refine moments_of_blocks _ _ _ _ fun E p cl r np d hd => ?_
    obtain ⟨⟨a1, a2⟩, ⟨b1, b2⟩, c1, c2⟩ := moment_size E p cl r np
    obtain rfl : d = 0 := by omega
    have hv : (vcat2 (moment E p cl r np) (momentDx E p cl r np)).rows = np * np + np * np := by show _ + _ = _; rw [a1, b1]
    refine ⟨_, rfl, by show (vcat2 _ _).rows + _ = _; rw [hv, c1]; ring, a2, fun α hα => ?_⟩
    rcases (by omega : α = 0 ∨ α = 1 ∨ α = 2) with rfl | rfl | rfl
    · exact ⟨moment E p cl r np, fun i hi s => by
        rw [vcat2_fst _ _ _ _ (by rw [hv]; omega), vcat2_fst _ _ _ _ (by rw [a1]; omega)]; simp,
        fun M => Or.inl ⟨rfl, by funext m s; simp [valueGradT]⟩⟩
    · exact ⟨momentDx E p cl r np, fun i hi s => by
        rw [vcat2_fst _ _ _ _ (by rw [hv]; omega), vcat2_snd _ _ i _ _ (by rw [a1]; omega)],
        fun M => Or.inr (Or.inl ⟨rfl, by funext m s; simp [valueGradT]⟩)⟩
    · exact ⟨momentDy E p cl r np, fun i hi s => by rw [vcat2_snd _ _ i _ _ (by rw [hv]; omega)],
        fun M => Or.inr (Or.inr ⟨rfl, by funext m s; simp [valueGradT]⟩)⟩
  · refine moments_of_blocks _ _ _ _ fun E p cl r np d hd => ?_
    obtain ⟨⟨a1, a2⟩, ⟨b1, b2⟩, c1, c2⟩ := moment_size E p cl r np
    rcases (by omega : d = 0 ∨ d = 1) with rfl | rfl
    · refine ⟨_, rfl, by show _ + _ = _; rw [a1, b1]; ring, a2, fun α hα => ?_⟩
      rcases (by omega : α = 0 ∨ α = 1) with rfl | rfl
      · exact ⟨moment E p cl r np, fun i hi s => by rw [vcat2_fst _ _ _ _ (by rw [a1]; omega)]; simp,
          fun M => Or.inl ⟨rfl, by funext m s; simp [divT]⟩⟩
      · exact ⟨momentDx E p cl r np, fun i hi s => by rw [vcat2_snd _ _ i _ _ (by rw [a1]; omega)],
          fun M => Or.inr (Or.inl ⟨rfl, by funext m s; simp [divT]⟩)⟩
    · refine ⟨_, rfl, by show _ + _ = _; rw [a1, c1]; ring, a2, fun α hα => ?_⟩
      rcases (by omega : α = 0 ∨ α = 1) with rfl | rfl
      · exact ⟨moment E p cl r np, fun i hi s => by rw [vcat2_fst _ _ _ _ (by rw [a1]; omega)]; simp,
          fun M => Or.inl ⟨rfl, by funext m s; simp [divT]⟩⟩
      · exact ⟨momentDy E p cl r np, fun i hi s => by rw [vcat2_snd _ _ i _ _ (by rw [a1]; omega)],
          fun M => Or.inr (Or.inr ⟨rfl, by funext m s; simp [divT]⟩)⟩

end Bembel.Props
