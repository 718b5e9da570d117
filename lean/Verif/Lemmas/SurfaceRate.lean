import Verif.Spec.SurfaceIntegral
import Verif.Props.SmoothSurface
import Verif.Lemmas.ElementSquare
/-! # Quadrature of smooth functions on the surface -/

namespace Bembel.SurfaceRate
open Finset Bembel.Mesh Bembel.Spec Bembel.Interpol Bembel.Props Bembel.SuperSpace
open scoped ContDiff

variable {R : Type} [RCLike R]

/-- One variable: the error bound depends only on bounds of the function and of one derivative. -/
theorem rate_one (es : EigenSolver) (hes : SolverCorrect es) (κ : Nat) (A D : ℝ) (hA : 0 ≤ A) (hD : 0 ≤ D) (g : ℝ → R)
    (h0 : ∀ s ∈ Set.Icc (0 : ℝ) 1, ‖g s‖ ≤ A) (hm : DerivBound (2 * κ) g D) (order i : Nat) (hi : i ≤ order) :
    ‖quad (gaussLegendre es order i) g - ∫ s in (0 : ℝ)..1, g s‖ ≤ 3 * (A + D) * (2 * κ + 20) ^ κ / ((i : ℝ) + 1) ^ κ := by
  obtain ⟨g1, g2⟩ := Smooth.gauss_facts es hes order i hi
  set Q := gaussLegendre es order i
  have p0 : (0 : ℝ) < ((i : ℝ) + 1) ^ κ := by positivity
  have triv := quad_trivial Q 2 g1 g A hA h0
  have easy : (i : ℝ) + 1 ≤ 2 * κ + 20 → ‖quad Q g - ∫ s in (0 : ℝ)..1, g s‖ ≤ 3 * (A + D) * (2 * κ + 20) ^ κ / ((i : ℝ) + 1) ^ κ := by
    intro h
    refine triv.trans ?_
    rw [le_div_iff₀ p0]
    have e := pow_le_pow_left₀ (by positivity : (0 : ℝ) ≤ (i : ℝ) + 1) h κ
    calc (1 + 2) * A * ((i : ℝ) + 1) ^ κ ≤ (1 + 2) * A * (2 * κ + 20) ^ κ := mul_le_mul_of_nonneg_left e (by positivity)
      _ ≤ _ := mul_le_mul_of_nonneg_right (by linarith) (by positivity)
  by_cases h : 20 < i + 1
  · by_cases h2 : 2 * κ ≤ 2 * (i + 1) - 1
    · have q := quad_jackson Q 2 g1 _ (2 * κ) (g2 h) h2 g D hm
      have e : ((2 * (i + 1) - 1 : Nat) : ℝ) + 1 = 2 * ((i : ℝ) + 1) := by
        have : (2 * (i + 1) - 1 : Nat) + 1 = 2 * (i + 1) := by omega
        exact_mod_cast this
      rw [e] at q
      have hle : ((2 * κ : Nat) : ℝ) + 1 ≤ 2 * ((i : ℝ) + 1) := by
        rw [← e]
        have : ((2 * κ : Nat) : ℝ) ≤ ((2 * (i + 1) - 1 : Nat) : ℝ) := by exact_mod_cast h2
        linarith
      have r := rate_aux _ (2 * ((i : ℝ) + 1)) (2 * κ) κ rfl hle rfl D hD
      refine q.trans ((mul_le_mul_of_nonneg_left r (by norm_num)).trans ?_)
      rw [div_pow]
      have a1 : (((2 * κ : Nat) : ℝ) + 1) ^ κ ≤ (2 * κ + 20) ^ κ := pow_le_pow_left₀ (by positivity) (by push_cast; linarith) κ
      have a2 : ((i : ℝ) + 1) ^ κ ≤ (2 * ((i : ℝ) + 1)) ^ κ := pow_le_pow_left₀ (by positivity) (by linarith [(Nat.cast_nonneg i : (0 : ℝ) ≤ i)]) κ
      calc (1 + 2) * (D * ((((2 * κ : Nat) : ℝ) + 1) ^ κ / (2 * ((i : ℝ) + 1)) ^ κ))
          ≤ (1 + 2) * (D * ((2 * κ + 20) ^ κ / ((i : ℝ) + 1) ^ κ)) := by gcongr
        _ = 3 * D * (2 * κ + 20) ^ κ / ((i : ℝ) + 1) ^ κ := by ring
        _ ≤ _ := by gcongr; linarith
    · refine easy ?_
      have : i + 1 ≤ 2 * κ := by omega
      have : (i : ℝ) + 1 ≤ 2 * κ := by exact_mod_cast this
      linarith
  · refine easy ?_
    have : i + 1 ≤ 20 := by omega
    have : (i : ℝ) + 1 ≤ 20 := by exact_mod_cast this
    linarith [(Nat.cast_nonneg κ : (0 : ℝ) ≤ κ)]

variable {X : Type} [NormedAddCommGroup X] [NormedSpace ℝ X]

/-- Two variables, uniformly for parameters in a compact set. -/
theorem rate_two (es : EigenSolver) (hes : SolverCorrect es) (K : Set X) (hK : IsCompact K) (G : X × ℝ × ℝ → R)
    (hG : ∀ x ∈ K, ∀ s, ClosedSquare s → ContDiffAt ℝ ∞ G (x, s)) (κ : Nat) : ∃ C, 0 ≤ C ∧ ∀ x ∈ K, ∀ order i, i ≤ order →
      ‖(quad (gaussLegendre es order i) fun a => quad (gaussLegendre es order i) fun b => G (x, a, b)) -
        ∫ a in (0 : ℝ)..1, ∫ b in (0 : ℝ)..1, G (x, a, b)‖ ≤ C / ((i : ℝ) + 1) ^ κ := by
  set B : Set (X × ℝ × ℝ) := K ×ˢ (Set.Icc (0 : ℝ) 1 ×ˢ Set.Icc (0 : ℝ) 1) with hB
  have cB : IsCompact B := hK.prod (isCompact_Icc.prod isCompact_Icc)
  have hGB : ∀ y ∈ B, ContDiffAt ℝ ∞ G y := fun y hy => hG y.1 hy.1 y.2 ⟨hy.2.1.1, hy.2.1.2, hy.2.2.1, hy.2.2.2⟩
  obtain ⟨A, hA⟩ := cB.exists_bound_of_continuousOn (f := G) fun y hy => (hGB y hy).continuousAt.continuousWithinAt
  obtain ⟨D1, d1⟩ := slice_deriv B cB ((0, 1, 0) : X × ℝ × ℝ) (2 * κ) G hGB
  obtain ⟨D2, d2⟩ := slice_deriv B cB ((0, 0, 1) : X × ℝ × ℝ) (2 * κ) G hGB
  set A' := max 0 A
  set D := max 0 (max D1 D2)
  have hA' : ∀ x ∈ K, ∀ s, ClosedSquare s → ‖G (x, s)‖ ≤ A' := fun x hx s hs => (hA (x, s) ⟨hx, ⟨hs.1, hs.2.1⟩, hs.2.2.1, hs.2.2.2⟩).trans (le_max_right _ _)
  refine ⟨(1 + 2) * (3 * (A' + D) * (2 * κ + 20) ^ κ), by positivity, fun x hx order i hi => ?_⟩
  obtain ⟨g1, -⟩ := Smooth.gauss_facts es hes order i hi
  let cl : ℝ → ℝ := fun s => max 0 (min 1 s)
  have clc : Continuous cl := by fun_prop
  have cl0 : ∀ s, 0 ≤ cl s ∧ cl s ≤ 1 := fun s => ⟨le_max_left _ _, max_le zero_le_one (min_le_left _ _)⟩
  have cle : ∀ s ∈ Set.Icc (0 : ℝ) 1, cl s = s := fun s hs => by
    show max 0 (min 1 s) = s
    rw [min_eq_right hs.2, max_eq_right hs.1]
  let F : ℝ → ℝ → R := fun a b => G (x, cl a, cl b)
  have hF : Continuous fun y : ℝ × ℝ => F y.1 y.2 := by
    rw [continuous_iff_continuousAt]
    intro y
    refine ContinuousAt.comp (f := fun y : ℝ × ℝ => (x, cl y.1, cl y.2)) (hG x hx (cl y.1, cl y.2) ⟨(cl0 _).1, (cl0 _).2, (cl0 _).1, (cl0 _).2⟩).continuousAt
      (Continuous.continuousAt (by fun_prop))
  set ε := 3 * (A' + D) * (2 * κ + 20) ^ κ / ((i : ℝ) + 1) ^ κ with hε
  have ε0 : 0 ≤ ε := by positivity
  have main := quad_two (gaussLegendre es order i) 2 g1 F hF ε ε0 (fun b hb => by
      rw [quad_congr _ 2 g1 (fun a => F a b) (fun a => G (x, a, b)) (fun a ha => by simp only [F, cle a ha, cle b hb]),
        int_congr (fun a => F a b) (fun a => G (x, a, b)) (fun a ha => by simp only [F, cle a ha, cle b hb])]
      refine rate_one es hes κ A' D (le_max_left _ _) (le_max_left _ _) _ (fun a ha => hA' x hx (a, b) ⟨ha.1, ha.2, hb.1, hb.2⟩) ?_ order i hi
      have E : ∀ s : ℝ, (x, (0 : ℝ), b) + s • ((0, 1, 0) : X × ℝ × ℝ) = (x, s, b) := fun s => by simp
      have hs : ∀ s ∈ Set.Icc (0 : ℝ) 1, (x, (0 : ℝ), b) + s • ((0, 1, 0) : X × ℝ × ℝ) ∈ B := fun s hs => by rw [E]; exact ⟨hx, hs, hb⟩
      have h1 := slice_contDiff B ((0, 1, 0) : X × ℝ × ℝ) (2 * κ) G hGB (x, 0, b) hs
      have h2 := d1 (x, 0, b) hs
      simp only [E] at h1 h2
      exact ⟨h1, fun s hs => (h2 s hs).trans ((le_max_left _ _).trans (le_max_right _ _))⟩)
    (fun a ha => by
      rw [quad_congr _ 2 g1 (fun b => F a b) (fun b => G (x, a, b)) (fun b hb => by simp only [F, cle a ha, cle b hb]),
        int_congr (fun b => F a b) (fun b => G (x, a, b)) (fun b hb => by simp only [F, cle a ha, cle b hb])]
      refine rate_one es hes κ A' D (le_max_left _ _) (le_max_left _ _) _ (fun b hb => hA' x hx (a, b) ⟨ha.1, ha.2, hb.1, hb.2⟩) ?_ order i hi
      have E : ∀ s : ℝ, (x, a, (0 : ℝ)) + s • ((0, 0, 1) : X × ℝ × ℝ) = (x, a, s) := fun s => by simp
      have hs : ∀ s ∈ Set.Icc (0 : ℝ) 1, (x, a, (0 : ℝ)) + s • ((0, 0, 1) : X × ℝ × ℝ) ∈ B := fun s hs => by rw [E]; exact ⟨hx, ha, hs⟩
      have h1 := slice_contDiff B ((0, 0, 1) : X × ℝ × ℝ) (2 * κ) G hGB (x, a, 0) hs
      have h2 := d2 (x, a, 0) hs
      simp only [E] at h1 h2
      exact ⟨h1, fun s hs => (h2 s hs).trans ((le_max_right _ _).trans (le_max_right _ _))⟩)
  have e1 : (quad (gaussLegendre es order i) fun a => quad (gaussLegendre es order i) fun b => F a b) =
      quad (gaussLegendre es order i) fun a => quad (gaussLegendre es order i) fun b => G (x, a, b) :=
    quad_congr _ 2 g1 _ _ fun a ha => quad_congr _ 2 g1 _ _ fun b hb => by simp only [F, cle a ha, cle b hb]
  have e2 : (∫ a in (0 : ℝ)..1, ∫ b in (0 : ℝ)..1, F a b) = ∫ a in (0 : ℝ)..1, ∫ b in (0 : ℝ)..1, G (x, a, b) :=
    int_congr _ _ fun a ha => int_congr _ _ fun b hb => by simp only [F, cle a ha, cle b hb]
  rw [e1, e2] at main
  refine main.trans (le_of_eq ?_)
  rw [hε]; ring

/-- The rule of the library on the square. -/
theorem gaussSquare_quad (es : EigenSolver) (order i : Nat) (hi : i ≤ order) (g : ℝ × ℝ → R) :
    ∑ j ∈ range (gaussSquare es order i).size, algebraMap ℝ R ((gaussSquare es order i).w j) * g ((gaussSquare es order i).xi j) =
      quad (gaussLegendre es order i) fun a => quad (gaussLegendre es order i) fun b => g (a, b) := by
  have e : gaussSquare es order i = tensorRule (gaussLegendre es order i) := by
    rw [gaussSquare, gaussLegendre, (C46_select _ order i hi).1, (C46_select _ order i hi).2]
  rw [e, C46_sum _ (fun w x => algebraMap ℝ R w * g x)]
  unfold quad
  refine sum_congr rfl fun a _ => ?_
  rw [smul_sum]
  exact sum_congr rfl fun b _ => by rw [smul_smul, Algebra.smul_def]

/-- The general theorem: the integrand is a smooth function of the parameter, the local coordinates, the point and the tangents. -/
theorem surface_rate (es : EigenSolver) (hes : SolverCorrect es) {V : Type} (near : V → V → Bool) (corner : Nat → Nat → V) (np M : Nat) (hP : 0 < np)
    (t : Mesh.Tree ℝ) (ht : initElementTree near corner np M = some t) (geo : Nat → ℝ × ℝ → V3 × V3 × V3) (hsm : SmoothPatches np geo)
    (K : Set X) (hK : IsCompact K) (g : X → Addr → SurfPt → R)
    (hg : ∀ a, IsNode np M a → ∀ x ∈ K, ∀ s, ClosedSquare s → ContDiffAt ℝ ∞
      (fun q : X × (ℝ × ℝ) × V3 × V3 × V3 => g q.1 a ⟨q.2.1, 1, q.2.2.1, q.2.2.2.1, q.2.2.2.2⟩)
      (x, s, geo (t.patch a) ((t.llc a).1 + getH t a * s.1, (t.llc a).2 + getH t a * s.2)))
    (els : List Addr) (hels : elements t = some els) (κ : Nat) : ∃ C, 0 ≤ C ∧ ∀ x ∈ K, ∀ order i, i ≤ order →
      ‖surfaceQuad t geo (gaussSquare es order i) els (g x) - surfaceIntegral t geo els (g x)‖ ≤ C / ((i : ℝ) + 1) ^ κ := by
  have hnode : ∀ a ∈ els, IsNode np M a := by
    obtain ⟨t', k1, k2, k3, k4, k5, k6, k7⟩ := tree_facts (K := ℝ) near corner np M hP
    obtain rfl : t = t' := Option.some.inj (ht.symm.trans k1)
    obtain rfl : els = leaves np M := Option.some.inj (hels.symm.trans (elements_eq t np M hP k3 k6))
    exact fun a ha => mem_leaves.1 ha
  have one : ∀ a, IsNode np M a → ∃ C, 0 ≤ C ∧ ∀ x ∈ K, ∀ order i, i ≤ order →
      ‖∑ j ∈ range (gaussSquare es order i).size, algebraMap ℝ R (getH t a ^ 2 * (gaussSquare es order i).w j) *
          g x a (elementPoint t geo a ((gaussSquare es order i).xi j)) -
        algebraMap ℝ R (getH t a ^ 2) * ∫ u in (0 : ℝ)..1, ∫ v in (0 : ℝ)..1, g x a (elementPoint t geo a (u, v))‖ ≤ C / ((i : ℝ) + 1) ^ κ := by
    intro a ha
    have hsq := node_square near corner np M hP t ht M le_rfl a ha
    have z0 : ClosedSquare (0, 0) := by norm_num [ClosedSquare]
    obtain ⟨g1, s1, e1⟩ := hsm _ (hsq _ z0).1
    let φ : ℝ × ℝ → ℝ × ℝ := fun x => ((t.llc a).1 + getH t a * x.1, (t.llc a).2 + getH t a * x.2)
    let G : X × ℝ × ℝ → R := fun q => g q.1 a ⟨q.2, 1, (g1 (φ q.2)).1, (g1 (φ q.2)).2.1, (g1 (φ q.2)).2.2⟩
    have hGe : ∀ x s, ClosedSquare s → g x a (elementPoint t geo a s) = G (x, s) := by
      intro x s hs
      have := e1 _ (hsq s hs).2
      show g x a ⟨s, 1, (geo (t.patch a) (φ s)).1, (geo (t.patch a) (φ s)).2.1, (geo (t.patch a) (φ s)).2.2⟩ = _
      rw [this]
    have hGs : ∀ x ∈ K, ∀ s, ClosedSquare s → ContDiffAt ℝ ∞ G (x, s) := by
      intro x hx s hs
      have h1 := hg a ha x hx s hs
      rw [e1 _ (hsq s hs).2] at h1
      refine ContDiffAt.comp (g := fun q : X × (ℝ × ℝ) × V3 × V3 × V3 => g q.1 a ⟨q.2.1, 1, q.2.2.1, q.2.2.2.1, q.2.2.2.2⟩)
        (f := fun q : X × ℝ × ℝ => (q.1, q.2, g1 (φ q.2))) (x, s) h1 ?_
      refine ContDiffAt.prodMk (by fun_prop) (ContDiffAt.prodMk (by fun_prop) ?_)
      exact ContDiffAt.comp (g := g1) (f := fun q : X × ℝ × ℝ => φ q.2) (x, s) (s1 _ (hsq s hs).2) (by fun_prop)
    obtain ⟨C, C0, hC⟩ := rate_two es hes K hK G hGs κ
    refine ⟨getH t a ^ 2 * C, by positivity, fun x hx order i hi => ?_⟩
    obtain ⟨p1, -⟩ := Smooth.gauss_facts es hes order i hi
    simp only [map_mul, mul_assoc, ← mul_sum]
    rw [gaussSquare_quad es order i hi (fun s => g x a (elementPoint t geo a s)), ← mul_sub, norm_mul]
    rw [quad_congr _ 2 p1 _ (fun u => quad (gaussLegendre es order i) fun v => G (x, u, v)) fun u hu => quad_congr _ 2 p1 _ _ fun v hv =>
        hGe x (u, v) ⟨hu.1, hu.2, hv.1, hv.2⟩,
      int_congr _ (fun u => ∫ v in (0 : ℝ)..1, G (x, u, v)) fun u hu => int_congr _ _ fun v hv => hGe x (u, v) ⟨hu.1, hu.2, hv.1, hv.2⟩]
    have hn : ‖algebraMap ℝ R (getH t a ^ 2)‖ = getH t a ^ 2 := by rw [norm_algebraMap', Real.norm_of_nonneg (by positivity)]
    rw [hn, mul_div_assoc]
    exact mul_le_mul_of_nonneg_left (hC x hx order i hi) (by positivity)
  choose! C C0 hC using one
  clear hels
  refine ⟨(els.map C).sum, List.sum_nonneg fun c hc => ?_, fun x hx order i hi => ?_⟩
  · obtain ⟨a, ha, rfl⟩ := List.mem_map.1 hc
    exact C0 a (hnode a ha)
  · unfold surfaceQuad surfaceIntegral
    induction els with
    | nil => simp
    | cons a l ih =>
      simp only [List.map_cons, List.sum_cons]
      rw [add_sub_add_comm, add_div]
      exact (norm_add_le _ _).trans (add_le_add (hC a (hnode a (by simp)) x hx order i hi) (ih fun b hb => hnode b (by simp [hb])))

end Bembel.SurfaceRate
