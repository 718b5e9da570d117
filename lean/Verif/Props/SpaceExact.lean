import Verif.Props.Refinement
import Verif.Lemmas.Blossom
import Verif.Spec.PatchSpline
/-!
# C80: the ansatz spaces consist of all conforming patchwise splines
-/

set_option linter.unusedSectionVars false

open Finset

namespace Bembel.Props
namespace SpaceExact
open Spec Spl Mesh Projector Glue Ansatz Refine Refinement

variable {V : Type} (near : V → V → Bool) (corner : Nat → Nat → V)
variable {R : Type} [Field R] [Algebra ℝ R]

theorem splineFun_congr (qx qy n r : Nat) (g g' : Nat → R) (h : ∀ c < splineDim qx n r * splineDim qy n r, g c = g' c) (x : ℝ × ℝ) :
    splineFun qx qy n r g x = splineFun qx qy n r g' x := by
  unfold splineFun
  exact sum_congr rfl fun c hc => by rw [h c (mem_range.1 hc)]

theorem splineFun_smul (qx qy n r : Nat) (g : Nat → R) (w : ℝ) (x : ℝ × ℝ) :
    splineFun qx qy n r (fun c => w • g c) x = w • splineFun qx qy n r g x := by
  unfold splineFun
  rw [smul_sum]
  exact sum_congr rfl fun c _ => smul_comm _ _ _

/-- The scaled values on the elements are the values of the spline. -/
theorem element_spline (P qx qy r M X Y : Nat) (hP : P ≤ 4) (hqx : 1 ≤ qx) (hqy : 1 ≤ qy) (hx : qx = P + 1 ∨ qx = P) (hy : qy = P + 1 ∨ qy = P)
    (hr : 1 ≤ r) (hX : X < 2 ^ M) (hY : Y < 2 ^ M) (γ : Nat → R) (s : ℝ × ℝ) (h1 : 0 ≤ s.1) (h2 : s.1 < 1) (h3 : 0 ≤ s.2) (h4 : s.2 < 1) :
    (1 / (1 / 2 ^ M) : ℝ) • elementValue P qx qy (2 ^ M) r X Y γ s =
      splineFun qx qy (2 ^ M) r (fun c => (2 ^ M : ℝ) • γ c) ((X : ℝ) / 2 ^ M + s.1 / 2 ^ M, (Y : ℝ) / 2 ^ M + s.2 / 2 ^ M) := by
  rw [elementValue_piece P qx qy _ r X Y hP hqx hqy hx hy hr hX hY, ← splineFun_patchValue qx qy _ r X Y hqx hqy hr hX hY γ s h1 h2 h3 h4, splineFun_smul, one_div_one_div]
  push_cast
  rw [add_div, add_div]

/-- Position of the elements. -/
theorem place (nP M : Nat) (hnP : 0 < nP) (t : Mesh.Tree ℝ) (ht : initElementTree near corner nP M = some t) (a : Addr) (ha : IsNode nP M a) :
    t.patch a = a.1 ∧ t.llc a = ((posX a.2 : ℝ) / 2 ^ M, (posY a.2 : ℝ) / 2 ^ M) ∧ posX a.2 < 2 ^ M ∧ posY a.2 < 2 ^ M := by
  obtain ⟨u, g1, g2, -⟩ := tree_facts (K := ℝ) near corner nP M hnP
  obtain rfl : u = t := Option.some.inj (g1.symm.trans ht)
  obtain ⟨-, -, p1, l1⟩ := g2 M le_rfl a (mem_leaves.2 ha)
  rw [ha.2.1] at l1
  have pb := pos_lt a.2
  rw [ha.2.1] at pb
  exact ⟨p1, l1, pb.1, pb.2⟩

theorem scale (M : Nat) (x : R) : (2 ^ M : ℝ) • ((1 / 2 ^ M : ℝ) • x) = x := by
  rw [smul_smul, show (2 ^ M : ℝ) * (1 / 2 ^ M) = 1 by field_simp, one_smul]

theorem scale' (M : Nat) (x : R) : (1 / 2 ^ M : ℝ) • ((2 ^ M : ℝ) • x) = x := by
  rw [smul_smul, show (1 / 2 ^ M : ℝ) * 2 ^ M = 1 by field_simp, one_smul]

theorem isPatchSpline (qx qy n r : Nat) (g : Nat → R) : IsPatchSpline qx qy n r (splineFun qx qy n r g) := ⟨g, fun _ _ _ _ _ => rfl⟩

/-- Points of elements and points on edges lie in the unit square. -/
theorem in_square (M X : Nat) (hX : X < 2 ^ M) (s : ℝ) (h1 : 0 ≤ s) (h2 : s < 1) : 0 ≤ (X : ℝ) / 2 ^ M + s / 2 ^ M ∧ (X : ℝ) / 2 ^ M + s / 2 ^ M ≤ 1 := by
  have : (X : ℝ) + 1 ≤ 2 ^ M := by exact_mod_cast hX
  rw [← add_div]
  exact ⟨by positivity, by rw [div_le_one (by positivity)]; linarith⟩

theorem edge_in_square (i : Nat) (x : ℝ) (h0 : 0 ≤ x) (h1 : x ≤ 1) : 0 ≤ (edgePoint i x).1 ∧ (edgePoint i x).1 ≤ 1 ∧ 0 ≤ (edgePoint i x).2 ∧ (edgePoint i x).2 ≤ 1 := by
  unfold edgePoint
  split_ifs <;> simp <;> constructor <;> linarith

theorem on_edge (n Y : Nat) (hY : Y < n) (s : ℝ) (h0 : 0 < s) (h1 : s < 1) : 0 ≤ ((Y : ℝ) + s) / n ∧ ((Y : ℝ) + s) / n ≤ 1 := by
  have : (Y : ℝ) + 1 ≤ n := by exact_mod_cast hY
  have hn : (0 : ℝ) < n := by exact_mod_cast (by omega : 0 < n)
  exact ⟨by positivity, by rw [div_le_one hn]; linarith⟩

end SpaceExact

open Spec Spl Mesh Projector Glue Ansatz Refine Refinement SpaceExact

variable {V : Type} (near : V → V → Bool) (corner : Nat → Nat → V)
variable {R : Type} [Field R] [Algebra ℝ R]

/-- C80 (discontinuous spaces): every patchwise spline is a function of the discontinuous space, and conversely. -/
theorem C80_discontinuous (junk : Nat → ℝ) (junkM : Nat → Nat → ℝ) (solve) (hs : SolvesSystems solve)
    (P M nP rep : Nat) (hnP : 0 < nP) (hP : P ≤ 4) (hrep : 1 ≤ rep)
    (t : Mesh.Tree ℝ) (ht : initElementTree near corner nP M = some t) (T : EMat ℝ) (hT : transformationDisc junk junkM solve t P M nP rep = some T) :
    (∀ F : Nat → ℝ × ℝ → R, (∀ p < nP, IsPatchSpline (P + 1) (P + 1) (2 ^ M) (min rep (P + 1)) (F p)) →
      ∃ f : EMat R, f.rows = T.cols ∧ f.cols = 1 ∧ ∀ a, IsNode nP M a → ∀ s : ℝ × ℝ, 0 ≤ s.1 → s.1 < 1 → 0 ≤ s.2 → s.2 < 1 →
        discreteFunction (ofReal R T) f (nP * 4 ^ M) P 0 (t.id a) (1 / 2 ^ M) s = F (t.patch a) ((t.llc a).1 + s.1 / 2 ^ M, (t.llc a).2 + s.2 / 2 ^ M)) ∧
    ∀ f : EMat R, ∃ F : Nat → ℝ × ℝ → R, (∀ p < nP, IsPatchSpline (P + 1) (P + 1) (2 ^ M) (min rep (P + 1)) (F p)) ∧
      ∀ a, IsNode nP M a → ∀ s : ℝ × ℝ, 0 ≤ s.1 → s.1 < 1 → 0 ≤ s.2 → s.2 < 1 →
        discreteFunction (ofReal R T) f (nP * 4 ^ M) P 0 (t.id a) (1 / 2 ^ M) s = F (t.patch a) ((t.llc a).1 + s.1 / 2 ^ M, (t.llc a).2 + s.2 / 2 ^ M) := by
  set r := min rep (P + 1) with hr
  set D := splineDim (P + 1) (2 ^ M) r * splineDim (P + 1) (2 ^ M) r with hD
  have value : ∀ (f : EMat R) a, IsNode nP M a → ∀ s : ℝ × ℝ, 0 ≤ s.1 → s.1 < 1 → 0 ≤ s.2 → s.2 < 1 →
      discreteFunction (ofReal R T) f (nP * 4 ^ M) P 0 (t.id a) (1 / 2 ^ M) s =
        splineFun (P + 1) (P + 1) (2 ^ M) r (fun c => (2 ^ M : ℝ) • f.at' (t.patch a * D + c) 0) ((t.llc a).1 + s.1 / 2 ^ M, (t.llc a).2 + s.2 / 2 ^ M) := by
    intro f a ha s h1 h2 h3 h4
    obtain ⟨p1, p2, px, py⟩ := place near corner nP M hnP t ht a ha
    rw [disc_value near corner _ _ _ hs P M nP rep hnP (by omega) hrep t ht T hT a ha p1, p1, p2,
      element_spline P (P + 1) (P + 1) _ M _ _ hP (by omega) (by omega) (Or.inl rfl) (Or.inl rfl) (by omega) px py _ s h1 h2 h3 h4]
  constructor
  · intro F hF
    choose! g hg using hF
    refine ⟨⟨T.cols, 1, fun d _ => (1 / 2 ^ M : ℝ) • g (d / D) (d % D)⟩, rfl, rfl, ?_⟩
    intro a ha s h1 h2 h3 h4
    obtain ⟨p1, p2, px, py⟩ := place near corner nP M hnP t ht a ha
    rw [value _ a ha s h1 h2 h3 h4, hg (t.patch a) (by rw [p1]; exact ha.1)]
    · refine splineFun_congr _ _ _ _ _ _ (fun c hc => ?_) _
      simp only []
      rw [scale, (patch_digits hc).1, (patch_digits hc).2]
    · rw [p2]; exact (in_square M _ px _ h1 h2).1
    · rw [p2]; exact (in_square M _ px _ h1 h2).2
    · rw [p2]; exact (in_square M _ py _ h3 h4).1
    · rw [p2]; exact (in_square M _ py _ h3 h4).2
  · intro f
    exact ⟨fun p => splineFun (P + 1) (P + 1) (2 ^ M) r fun c => (2 ^ M : ℝ) • f.at' (p * D + c) 0, fun p _ => isPatchSpline _ _ _ _ _, fun a ha s h1 h2 h3 h4 => value f a ha s h1 h2 h3 h4⟩

/-- C80 (continuous spaces): every patchwise spline which matches across the edges of the patches is a function of the continuous space, and conversely. -/
theorem C80_continuous (junk : Nat → ℝ) (junkM : Nat → Nat → ℝ) (solve) (hs : SolvesSystems solve)
    (P M nP rep : Nat) (hnP : 0 < nP) (hP0 : 0 < P) (hP : P ≤ 4) (hrep : 1 ≤ rep) (hrP : rep ≤ P)
    (hc : ConformingPatches near corner nP) (ho : OrientedPatches corner nP)
    (t : Mesh.Tree ℝ) (ht : initElementTree near corner nP M = some t) (T : EMat ℝ) (hT : transformationCont junk junkM solve t P M nP rep = some T) :
    (∀ F : Nat → ℝ × ℝ → R, (∀ p < nP, IsPatchSpline (P + 1) (P + 1) (2 ^ M) rep (F p)) → MatchAcross corner nP (2 ^ M) F →
      ∃ f : EMat R, f.rows = T.cols ∧ f.cols = 1 ∧ ∀ a, IsNode nP M a → ∀ s : ℝ × ℝ, 0 ≤ s.1 → s.1 < 1 → 0 ≤ s.2 → s.2 < 1 →
        discreteFunction (ofReal R T) f (nP * 4 ^ M) P 0 (t.id a) (1 / 2 ^ M) s = F (t.patch a) ((t.llc a).1 + s.1 / 2 ^ M, (t.llc a).2 + s.2 / 2 ^ M)) ∧
    ∀ f : EMat R, ∃ F : Nat → ℝ × ℝ → R, (∀ p < nP, IsPatchSpline (P + 1) (P + 1) (2 ^ M) rep (F p)) ∧ MatchAcross corner nP (2 ^ M) F ∧
      ∀ a, IsNode nP M a → ∀ s : ℝ × ℝ, 0 ≤ s.1 → s.1 < 1 → 0 ≤ s.2 → s.2 < 1 →
        discreteFunction (ofReal R T) f (nP * 4 ^ M) P 0 (t.id a) (1 / 2 ^ M) s = F (t.patch a) ((t.llc a).1 + s.1 / 2 ^ M, (t.llc a).2 + s.2 / 2 ^ M) := by
  set n := splineDim (P + 1) (2 ^ M) rep with hn
  obtain ⟨A, G, trips, col, val, c1, c2, c3, c4, c5, c6, c7⟩ := cont_facts near corner junk junkM solve hs P M nP rep hnP hP0 (by omega) hrep hrP hc ho t ht T hT
  rw [← hn] at c3 c5 c7
  have n0 : 0 < n := dim_pos _ _ _ (by omega)
  have pos : ∀ i < 4, ∀ d < n, edgeY n i d * n + edgeX n i d < n * n := by
    intro i hi d hd
    have := edgePos_lt (n := n) n0 hi hd
    have h2 : (edgeY n i d + 1) * n ≤ n * n := Nat.mul_le_mul_right _ this.2
    rw [Nat.add_mul, Nat.one_mul] at h2
    omega
  have eD : ∀ p i d, edgeDof n p i d = p * (n * n) + (edgeY n i d * n + edgeX n i d) := by
    intro p i d; unfold edgeDof dofIndex; ring
  have lt : ∀ p i d, p < nP → i < 4 → d < n → edgeDof n p i d < A.cols := by
    intro p i d hp hi hd
    have := pos i hi d hd
    rw [c3, eD]
    have h1 : (p + 1) * (n * n) ≤ nP * (n * n) := Nat.mul_le_mul_right _ hp
    rw [Nat.add_mul, Nat.one_mul] at h1
    omega
  have value : ∀ (γ : Nat → R) a, IsNode nP M a → ∀ s : ℝ × ℝ, 0 ≤ s.1 → s.1 < 1 → 0 ≤ s.2 → s.2 < 1 →
      discreteFunction (ofReal R A) ⟨A.cols, 1, fun d _ => γ d⟩ (nP * 4 ^ M) P 0 (t.id a) (1 / 2 ^ M) s =
        splineFun (P + 1) (P + 1) (2 ^ M) rep (fun c => (2 ^ M : ℝ) • γ (t.patch a * (n * n) + c)) ((t.llc a).1 + s.1 / 2 ^ M, (t.llc a).2 + s.2 / 2 ^ M) := by
    intro γ a ha s h1 h2 h3 h4
    obtain ⟨p1, p2, px, py⟩ := place near corner nP M hnP t ht a ha
    rw [discreteFunction_element A P M nP (P + 1) (P + 1) rep 0 0 0 t a p1 ha.1 (by simp) (by rw [c3, hn]; omega)
      (by intro pa _ c i hi hc; rw [Nat.zero_add, Nat.zero_add]; exact c7 a ha pa c i hi hc) (by intro i _ c hc h; rw [c3, hn] at hc; omega) γ, p1, p2,
      element_spline P (P + 1) (P + 1) _ M _ _ hP (by omega) (by omega) (Or.inl rfl) (Or.inl rfl) (by omega) px py _ s h1 h2 h3 h4]
    simp only [Nat.zero_add]
    rw [hn]
  constructor
  · intro F hF hm
    choose! g hg using hF
    set g' : Nat → R := fun d => (1 / 2 ^ M : ℝ) • g (d / (n * n)) (d % (n * n)) with hg'
    have link : ∀ d e, Linked corner nP (P + 1 + (2 ^ M - 1) * rep) d e → g' d = g' e := by
      intro d e h
      have hdim : P + 1 + (2 ^ M - 1) * rep = n := rfl
      rw [hdim] at h
      induction h with
      | refl => rfl
      | symm _ _ _ ih => exact ih.symm
      | trans _ _ _ _ _ ih1 ih2 => exact ih1.trans ih2
      | rel d e h =>
        obtain ⟨p, q, i, l, s, hp, hq, hpq, hi, hl, hE, hs, rfl, rfl⟩ := h
        have m := match_coefficients (R := R) (P + 1) (P + 1) (P + 1) (P + 1) (2 ^ M) rep i l (by omega) (by omega) (by omega) (by omega) hrep (by positivity)
          hi hl (P + 1) (by simp [edgeOrder]) (by simp [edgeOrder]) (by omega) (g p) (g q) 1 (-1) (by
            intro Y hY s h0 h1
            obtain ⟨e0, e1⟩ := on_edge (2 ^ M) Y hY s h0 h1
            have e2 := edge_in_square i _ e0 e1
            have e3 := edge_in_square l (1 - ((Y : ℝ) + s) / (2 ^ M : Nat)) (by linarith) (by linarith)
            rw [one_smul, neg_one_smul, ← sub_eq_add_neg, sub_eq_zero]
            have := hm p hp q hq hpq i hi l hl hE Y hY s h0 h1
            rw [hg p hp _ e2.1 e2.2.1 e2.2.2.1 e2.2.2.2, hg q hq _ e3.1 e3.2.1 e3.2.2.1 e3.2.2.2] at this
            exact this) s hs
        rw [← hn, one_smul, neg_one_smul, ← sub_eq_add_neg, sub_eq_zero] at m
        simp only [hg', eD]
        rw [(patch_digits (pos i hi s hs)).1, (patch_digits (pos i hi s hs)).2, (patch_digits (pos l hl (n - 1 - s) (by omega))).1,
          (patch_digits (pos l hl (n - 1 - s) (by omega))).2, m]
    obtain ⟨A', h1, f, h2, h3, h4⟩ := C64_continuous_complete near corner junk junkM solve hs P M nP rep hnP hP0 (by omega) hrep hrP hc ho t ht T hT g' link
    obtain rfl : A' = A := Option.some.inj (h1.symm.trans c1)
    refine ⟨f, h2, h3, ?_⟩
    intro a ha s h1 h2 h3 h5
    obtain ⟨p1, p2, px, py⟩ := place near corner nP M hnP t ht a ha
    rw [h4, value _ a ha s h1 h2 h3 h5, hg (t.patch a) (by rw [p1]; exact ha.1)]
    · refine splineFun_congr _ _ _ _ _ _ (fun c hc => ?_) _
      rw [← hn] at hc
      simp only [hg']
      rw [scale, (patch_digits hc).1, (patch_digits hc).2]
    · rw [p2]; exact (in_square M _ px _ h1 h2).1
    · rw [p2]; exact (in_square M _ px _ h1 h2).2
    · rw [p2]; exact (in_square M _ py _ h3 h5).1
    · rw [p2]; exact (in_square M _ py _ h3 h5).2
  · intro f
    set γ : Nat → R := fun d => (val d : ℝ) • f.at' (col d) 0 with hγ
    refine ⟨fun p => splineFun (P + 1) (P + 1) (2 ^ M) rep fun c => (2 ^ M : ℝ) • γ (p * (n * n) + c), fun p _ => isPatchSpline _ _ _ _ _, ?_, ?_⟩
    · intro p hp q hq hpq i hi l hl hE Y hY s h0 h1
      have m := match_values (R := R) (P + 1) (P + 1) (P + 1) (P + 1) (2 ^ M) rep i l (by omega) (by omega) (by omega) (by omega) hrep
        hi hl (P + 1) (by simp [edgeOrder]) (by simp [edgeOrder]) (fun c => (2 ^ M : ℝ) • γ (p * (n * n) + c)) (fun c => (2 ^ M : ℝ) • γ (q * (n * n) + c)) 1 (-1) (by
          intro s hs
          rw [← hn] at hs ⊢
          rw [← eD, ← eD, one_smul, neg_one_smul, ← sub_eq_add_neg, sub_eq_zero]
          have l1 := lt p i s hp hi hs
          have l2 := lt q l (n - 1 - s) hq hl (by omega)
          simp only [hγ]
          rw [c6 _ l1, c6 _ l2]
          have := (c5.same _ (c4.mem _ l1) _ (c4.mem _ l2)).2 (Or.inr (Relation.EqvGen.rel _ _ ⟨p, q, i, l, s, hp, hq, hpq, hi, hl, hE, hs, rfl, rfl⟩))
          simp only at this
          rw [this]) Y hY s h0 h1
      rw [one_smul, neg_one_smul, ← sub_eq_add_neg, sub_eq_zero] at m
      exact m
    · intro a ha s h1 h2 h3 h4
      rw [discreteFunction_mul A G T f c2 trips col val c4]
      exact value γ a ha s h1 h2 h3 h4

set_option maxHeartbeats 1000000 in
/-- C80 (divergence conforming spaces): every field whose components are splines of the orders `(P + 1, P)` and `(P, P + 1)` on the patches and whose flows
through the edges of the patches cancel is a field of the divergence conforming space, and conversely. -/
theorem C80_divergence (junk : Nat → ℝ) (junkM : Nat → Nat → ℝ) (solve) (hs : SolvesSystems solve)
    (P M nP rep : Nat) (hnP : 0 < nP) (hP0 : 0 < P) (hP : P ≤ 4) (hrep : 1 ≤ rep) (hrP : rep ≤ P)
    (hc : ConformingPatches near corner nP)
    (t : Mesh.Tree ℝ) (ht : initElementTree near corner nP M = some t) (T : EMat ℝ) (hT : transformationDiv junk junkM solve t P M nP rep = some T) :
    (∀ F : Nat → Nat → ℝ × ℝ → R, (∀ p < nP, IsPatchSpline (P + 1) P (2 ^ M) rep (F 0 p)) → (∀ p < nP, IsPatchSpline P (P + 1) (2 ^ M) rep (F 1 p)) →
      FlowAcross corner nP (2 ^ M) F →
      ∃ f : EMat R, f.rows = T.cols ∧ f.cols = 1 ∧ ∀ a, IsNode nP M a → ∀ s : ℝ × ℝ, 0 ≤ s.1 → s.1 < 1 → 0 ≤ s.2 → s.2 < 1 → ∀ d < 2,
        discreteFunction (ofReal R T) f (nP * 4 ^ M) P d (t.id a) (1 / 2 ^ M) s = F d (t.patch a) ((t.llc a).1 + s.1 / 2 ^ M, (t.llc a).2 + s.2 / 2 ^ M)) ∧
    ∀ f : EMat R, ∃ F : Nat → Nat → ℝ × ℝ → R, (∀ p < nP, IsPatchSpline (P + 1) P (2 ^ M) rep (F 0 p)) ∧ (∀ p < nP, IsPatchSpline P (P + 1) (2 ^ M) rep (F 1 p)) ∧
      FlowAcross corner nP (2 ^ M) F ∧
      ∀ a, IsNode nP M a → ∀ s : ℝ × ℝ, 0 ≤ s.1 → s.1 < 1 → 0 ≤ s.2 → s.2 < 1 → ∀ d < 2,
        discreteFunction (ofReal R T) f (nP * 4 ^ M) P d (t.id a) (1 / 2 ^ M) s = F d (t.patch a) ((t.llc a).1 + s.1 / 2 ^ M, (t.llc a).2 + s.2 / 2 ^ M) := by
  obtain ⟨A, G, T1, trips, col, val, c1, c2, c3, -, c4, c5, c6, c7, c8⟩ := div_facts near corner junk junkM solve hs P M nP rep hnP hP0 (by omega) hrep hrP hc t ht
  obtain rfl : T1 = T := Option.some.inj (c2.symm.trans hT)
  let D : Nat → Nat := fun M => splineDim (P + 1) (2 ^ M) rep * splineDim P (2 ^ M) rep
  let off : Nat → Nat → Nat := fun M i => if i = 1 ∨ i = 3 then 0 else nP * D M
  let qx : Nat → Nat := fun i => if i = 1 ∨ i = 3 then P + 1 else P
  let qy : Nat → Nat := fun i => if i = 1 ∨ i = 3 then P else P + 1
  have qx1 : ∀ i, 1 ≤ qx i := fun i => by simp only [qx]; split_ifs <;> omega
  have qy1 : ∀ i, 1 ≤ qy i := fun i => by simp only [qy]; split_ifs <;> omega
  have qxr : ∀ i, rep ≤ qx i := fun i => by simp only [qx]; split_ifs <;> omega
  have qyr : ∀ i, rep ≤ qy i := fun i => by simp only [qy]; split_ifs <;> omega
  have qxP : ∀ i, qx i = P + 1 ∨ qx i = P := fun i => by simp only [qx]; split_ifs <;> simp
  have qyP : ∀ i, qy i = P + 1 ∨ qy i = P := fun i => by simp only [qy]; split_ifs <;> simp
  have dimD : ∀ M i, splineDim (qx i) (2 ^ M) rep * splineDim (qy i) (2 ^ M) rep = D M := fun M i => by
    simp only [qx, qy, D]; split_ifs
    · rfl
    · exact Nat.mul_comm _ _
  have tang : ∀ i < 4, edgeOrder (qx i) (qy i) i = P := by
    intro i hi
    rcases four_cases hi with rfl | rfl | rfl | rfl <;> simp [edgeOrder, qx, qy]
  have hl : ∀ M, splineDim (P + 1) (2 ^ M) rep = P + rep * (2 ^ M - 1) + 1 := fun M => by unfold splineDim; ring
  have hsm : ∀ M, splineDim P (2 ^ M) rep = P + rep * (2 ^ M - 1) := fun M => by unfold splineDim; ring
  have idx : ∀ M, ∀ i < 4, ∀ p d, normalDof (P + rep * (2 ^ M - 1)) nP p i d = off M i + (p * D M +
      (edgeY (splineDim (qy i) (2 ^ M) rep) i d * splineDim (qx i) (2 ^ M) rep + edgeX (splineDim (qx i) (2 ^ M) rep) i d)) := by
    intro M i hi p d
    unfold normalDof
    simp only [off, qx, qy, D]
    by_cases h : i = 1 ∨ i = 3
    · simp only [if_pos h, hl, hsm]; ring
    · simp only [if_neg h, hl, hsm]; ring
  have pos : ∀ M, ∀ i < 4, ∀ d < splineDim P (2 ^ M) rep,
      edgeY (splineDim (qy i) (2 ^ M) rep) i d * splineDim (qx i) (2 ^ M) rep + edgeX (splineDim (qx i) (2 ^ M) rep) i d < D M := by
    intro M i hi d hd
    have h1 : edgeX (splineDim (qx i) (2 ^ M) rep) i d < splineDim (qx i) (2 ^ M) rep ∧ edgeY (splineDim (qy i) (2 ^ M) rep) i d < splineDim (qy i) (2 ^ M) rep := by
      have := dim_pos (qx i) (2 ^ M) rep (qx1 i)
      have := dim_pos (qy i) (2 ^ M) rep (qy1 i)
      rcases four_cases hi with rfl | rfl | rfl | rfl <;> simp [edgeX, edgeY, qx, qy] at * <;> omega
    rw [← dimD M i, Nat.mul_comm (splineDim (qx i) _ _)]
    have h2 : (edgeY (splineDim (qy i) (2 ^ M) rep) i d + 1) * splineDim (qx i) (2 ^ M) rep ≤ splineDim (qy i) (2 ^ M) rep * splineDim (qx i) (2 ^ M) rep :=
      Nat.mul_le_mul_right _ h1.2
    rw [Nat.add_mul, Nat.one_mul] at h2
    omega
  have comp : ∀ d < 2, ∃ i, i < 4 ∧ d = normalComponent i := by
    intro d hd
    rcases (show d = 0 ∨ d = 1 by omega) with rfl | rfl
    · exact ⟨1, by omega, by simp [normalComponent]⟩
    · exact ⟨0, by omega, by simp [normalComponent]⟩
  have value : ∀ (γ : Nat → R) a, IsNode nP M a → ∀ s : ℝ × ℝ, 0 ≤ s.1 → s.1 < 1 → 0 ≤ s.2 → s.2 < 1 → ∀ i,
      discreteFunction (ofReal R A) ⟨A.cols, 1, fun d _ => γ d⟩ (nP * 4 ^ M) P (normalComponent i) (t.id a) (1 / 2 ^ M) s =
        splineFun (qx i) (qy i) (2 ^ M) rep (fun c => (2 ^ M : ℝ) • γ (off M i + (t.patch a * D M + c))) ((t.llc a).1 + s.1 / 2 ^ M, (t.llc a).2 + s.2 / 2 ^ M) := by
    intro γ a ha s h1 h2 h3 h4 i
    obtain ⟨p1, p2, px, py⟩ := place near corner nP M hnP t ht a ha
    rw [normal_value near corner junk junkM solve hs P M nP rep hnP hP0 (by omega) hrep hrP t ht A c1 a ha γ s i, p1, p2]
    exact element_spline P (qx i) (qy i) rep M _ _ hP (qx1 i) (qy1 i) (qxP i) (qyP i) hrep px py (fun c => γ (off M i + (a.1 * D M + c))) s h1 h2 h3 h4
  constructor
  · intro F hF0 hF1 hm
    have hF : ∀ i, ∀ p < nP, IsPatchSpline (qx i) (qy i) (2 ^ M) rep (F (normalComponent i) p) := by
      intro i p hp
      simp only [qx, qy, normalComponent]
      split_ifs
      · exact hF0 p hp
      · exact hF1 p hp
    have hF' := hF
    choose! g0 hg0 using hF
    let g : Nat → Nat → Nat → R := fun i => if i = 1 ∨ i = 3 then g0 1 else g0 0
    have hg : ∀ i, ∀ p < nP, ∀ x : ℝ × ℝ, 0 ≤ x.1 → x.1 ≤ 1 → 0 ≤ x.2 → x.2 ≤ 1 → F (normalComponent i) p x = splineFun (qx i) (qy i) (2 ^ M) rep (g i p) x := by
      intro i p hp x x1 x2 x3 x4
      by_cases h : i = 1 ∨ i = 3
      · have := hg0 1 p hp x x1 x2 x3 x4
        simp only [g, if_pos h, qx, qy, normalComponent] at this ⊢
        simpa [splineFun] using this
      · have := hg0 0 p hp x x1 x2 x3 x4
        simp only [g, if_neg h, qx, qy, normalComponent] at this ⊢
        simpa [splineFun] using this
    let g' : Nat → R := fun d => if d < nP * D M then (1 / 2 ^ M : ℝ) • g 1 (d / D M) (d % D M)
      else (1 / 2 ^ M : ℝ) • g 0 ((d - nP * D M) / D M) ((d - nP * D M) % D M)
    have gEq : ∀ i, ∀ p < nP, ∀ c < D M, g' (off M i + (p * D M + c)) = (1 / 2 ^ M : ℝ) • g i p c := by
      intro i p hp c hcD
      have h1 : (p + 1) * D M ≤ nP * D M := Nat.mul_le_mul_right _ hp
      rw [Nat.add_mul, Nat.one_mul] at h1
      have gi : g i = if i = 1 ∨ i = 3 then g 1 else g 0 := by
        by_cases h : i = 1 ∨ i = 3
        · simp only [g, if_pos h]
          simp
        · simp only [g, if_neg h]
          exact (if_neg (by omega)).symm
      rw [gi]
      simp only [g', off]
      split_ifs with h2 h3 h3
      · rw [Nat.zero_add, (patch_digits hcD).1, (patch_digits hcD).2]
      · omega
      · omega
      · rw [Nat.add_sub_cancel_left, (patch_digits hcD).1, (patch_digits hcD).2]
    have balance : ∀ p q i l s d e, NormalPaired corner nP (P + rep * (2 ^ M - 1)) p i q l s d e →
        (outwardSign i : ℝ) • g' d + (outwardSign l : ℝ) • g' e = 0 := by
      rintro p q i l s d e ⟨hp, hq, hpq, hi, hl', hE, hs, rfl, rfl⟩
      rw [← hsm] at hs
      rw [idx M i hi, idx M l hl', ← hsm]
      rw [gEq i p hp _ (pos M i hi s hs), gEq l q hq _ (pos M l hl' _ (by omega))]
      have m := match_coefficients (R := R) (qx i) (qy i) (qx l) (qy l) (2 ^ M) rep i l (qx1 i) (qy1 i) (qx1 l) (qy1 l) hrep (by positivity) hi hl' P
        (tang i hi) (tang l hl') hrP (g i p) (g l q) (outwardSign i) (outwardSign l) (by
          intro Y hY s h0 h1
          obtain ⟨e0, e1⟩ := on_edge (2 ^ M) Y hY s h0 h1
          have e2 := edge_in_square i _ e0 e1
          have e3 := edge_in_square l (1 - ((Y : ℝ) + s) / (2 ^ M : Nat)) (by linarith) (by linarith)
          have := hm p hp q hq hpq i hi l hl' hE Y hY s h0 h1
          rw [hg i p hp _ e2.1 e2.2.1 e2.2.2.1 e2.2.2.2, hg l q hq _ e3.1 e3.2.1 e3.2.2.1 e3.2.2.2] at this
          exact this) s hs
      rw [smul_comm _ (1 / 2 ^ M : ℝ), smul_comm _ (1 / 2 ^ M : ℝ), ← smul_add, m, smul_zero]
    obtain ⟨A', T1', h0, h1, f, h2, h3, h4⟩ := C64_divergence_complete near corner junk junkM solve hs P M nP rep hnP hP0 (by omega) hrep hrP hc t ht g' balance
    obtain rfl : T1' = T1 := Option.some.inj (h1.symm.trans hT)
    obtain rfl : A' = A := Option.some.inj (h0.symm.trans c1)
    refine ⟨f, h2, h3, ?_⟩
    intro a ha s h1 h2 h3 h5 d hd
    obtain ⟨i, hi, rfl⟩ := comp d hd
    obtain ⟨p1, p2, px, py⟩ := place near corner nP M hnP t ht a ha
    rw [h4, value _ a ha s h1 h2 h3 h5 i, hg i (t.patch a) (by rw [p1]; exact ha.1)]
    · refine splineFun_congr _ _ _ _ _ _ (fun c hc => ?_) _
      rw [dimD] at hc
      rw [gEq i _ (by rw [p1]; exact ha.1) c hc, scale]
    · rw [p2]; exact (in_square M _ px _ h1 h2).1
    · rw [p2]; exact (in_square M _ px _ h1 h2).2
    · rw [p2]; exact (in_square M _ py _ h3 h5).1
    · rw [p2]; exact (in_square M _ py _ h3 h5).2
  · intro f
    let γ : Nat → R := fun d => (val d : ℝ) • f.at' (col d) 0
    let H : Nat → Nat → ℝ × ℝ → R := fun i p => splineFun (qx i) (qy i) (2 ^ M) rep fun c => (2 ^ M : ℝ) • γ (off M i + (p * D M + c))
    let F : Nat → Nat → ℝ × ℝ → R := fun d => if d = 0 then H 1 else H 0
    have HF : ∀ i, H i = F (normalComponent i) := by
      intro i
      simp only [F, normalComponent]
      by_cases h : i = 1 ∨ i = 3
      · simp only [H, qx, qy, off, if_pos h]; simp
      · simp only [H, qx, qy, off, if_neg h]; simp
    refine ⟨F, fun p _ => ?_, fun p _ => ?_, ?_, ?_⟩
    · simp only [F, if_true, H, qx, qy, true_or]; exact isPatchSpline _ _ _ _ _
    · have : F 1 p = H 0 p := by simp [F]
      rw [this]
      simp only [H, qx, qy]; exact isPatchSpline _ _ _ _ _
    · intro p hp q hq hpq i hi l hl' hE Y hY s h0 h1
      rw [← HF, ← HF]
      refine match_values (R := R) (qx i) (qy i) (qx l) (qy l) (2 ^ M) rep i l (qx1 i) (qy1 i) (qx1 l) (qy1 l) hrep hi hl' P
        (tang i hi) (tang l hl') _ _ (outwardSign i) (outwardSign l) ?_ Y hY s h0 h1
      intro s hs
      rw [← idx M i hi, ← idx M l hl', hsm]
      rw [hsm] at hs
      have np : NormalPaired corner nP (P + rep * (2 ^ M - 1)) p i q l s _ _ := ⟨hp, hq, hpq, hi, hl', hE, hs, rfl, rfl⟩
      have l1 : normalDof (P + rep * (2 ^ M - 1)) nP p i s < A.cols := by rw [c4]; exact normalDof_lt hi hs hp
      have l2 : normalDof (P + rep * (2 ^ M - 1)) nP q l (P + rep * (2 ^ M - 1) - 1 - s) < A.cols := by rw [c4]; exact normalDof_lt hl' (by omega) hq
      have same := (c6.same _ (c5.mem _ l1) _ (c5.mem _ l2)).2 (Or.inr ⟨_, _, _, _, _, np⟩)
      simp only at same
      have flux := c7 _ (c5.mem _ l1) _ (c5.mem _ l2) _ _ _ _ _ np
      simp only at flux
      rw [smul_comm _ (2 ^ M : ℝ), smul_comm _ (2 ^ M : ℝ), ← smul_add]
      simp only [γ]
      rw [same, smul_smul, smul_smul, ← add_smul]
      have : (outwardSign i : ℝ) * (val (normalDof (P + rep * (2 ^ M - 1)) nP p i s) : ℝ) +
          (outwardSign l : ℝ) * (val (normalDof (P + rep * (2 ^ M - 1)) nP q l (P + rep * (2 ^ M - 1) - 1 - s)) : ℝ) = 0 := by
        exact_mod_cast flux
      rw [this, zero_smul, smul_zero]
    · intro a ha s h1 h2 h3 h4 d hd
      obtain ⟨i, hi, rfl⟩ := comp d hd
      rw [discreteFunction_mul A G T1 f c3 trips col val c5, ← HF]
      exact value γ a ha s h1 h2 h3 h4 i

/-- C80 (polynomials): the polynomials of degree less than `qx` in the first and less than `qy` in the second coordinate are splines on every patch. -/
theorem C80_polynomials (qx qy n r : Nat) (hqx : 1 ≤ qx) (hqy : 1 ≤ qy) (hr : 1 ≤ r) (hn : 0 < n) (c : Nat → Nat → R) (F : ℝ × ℝ → R)
    (hF : ∀ x : ℝ × ℝ, F x = ∑ m ∈ range qx, ∑ l ∈ range qy, (x.1 ^ m * x.2 ^ l) • c m l) : IsPatchSpline qx qy n r F :=
  ⟨_, fun x h1 h2 h3 h4 => (hF x).trans (poly_spline qx qy n r hqx hqy hr hn c x h1 h2 h3 h4).symm⟩

/-- C80 (constants): the constants lie in every continuous space. -/
theorem C80_constants (junk : Nat → ℝ) (junkM : Nat → Nat → ℝ) (solve) (hs : SolvesSystems solve)
    (P M nP rep : Nat) (hnP : 0 < nP) (hP0 : 0 < P) (hP : P ≤ 4) (hrep : 1 ≤ rep) (hrP : rep ≤ P)
    (hc : ConformingPatches near corner nP) (ho : OrientedPatches corner nP)
    (t : Mesh.Tree ℝ) (ht : initElementTree near corner nP M = some t) (T : EMat ℝ) (hT : transformationCont junk junkM solve t P M nP rep = some T) (c : R) :
    ∃ f : EMat R, f.rows = T.cols ∧ f.cols = 1 ∧ ∀ a, IsNode nP M a → ∀ s : ℝ × ℝ, 0 ≤ s.1 → s.1 < 1 → 0 ≤ s.2 → s.2 < 1 →
      discreteFunction (ofReal R T) f (nP * 4 ^ M) P 0 (t.id a) (1 / 2 ^ M) s = c :=
  (C80_continuous near corner junk junkM solve hs P M nP rep hnP hP0 hP hrep hrP hc ho t ht T hT).1 (fun _ _ => c)
    (fun p _ => C80_polynomials _ _ _ _ (by omega) (by omega) hrep (by positivity) (fun m l => if m = 0 ∧ l = 0 then c else 0) _ (fun x => by
      rw [sum_eq_single 0, sum_eq_single 0]
      · simp
      · intro l _ hl; simp [hl]
      · intro h; exact absurd (mem_range.2 (by omega)) h
      · intro m _ hm; exact sum_eq_zero fun l _ => by simp [hm]
      · intro h; exact absurd (mem_range.2 (by omega)) h))
    (fun _ _ _ _ _ _ _ _ _ _ _ _ _ _ _ => rfl)

/-! ### the hypotheses can be met -/

/-- A function on the cube which is not constant: `(x - x²)(y - y²)` on the first patch and zero on the other ones is a conforming patchwise spline. -/
example : (∀ p < 6, IsPatchSpline 3 3 4 1 ((fun p x => if p = 0 then (x.1 - x.1 ^ 2) * (x.2 - x.2 ^ 2) else 0 : Nat → ℝ × ℝ → ℝ) p)) ∧
    MatchAcross cubeCorner 6 4 (fun p x => if p = 0 then (x.1 - x.1 ^ 2) * (x.2 - x.2 ^ 2) else 0 : Nat → ℝ × ℝ → ℝ) := by
  constructor
  · intro p _
    by_cases hp : p = 0
    · refine C80_polynomials 3 3 4 1 (by omega) (by omega) (by omega) (by omega) (fun m l => ([0, 1, -1] : List ℝ).getD m 0 * ([0, 1, -1] : List ℝ).getD l 0) _ ?_
      intro x
      simp only [hp, if_true, sum_range_succ, range_zero, sum_empty]
      simp
      ring
    · exact C80_polynomials 3 3 4 1 (by omega) (by omega) (by omega) (by omega) (fun _ _ => 0) _ (fun x => by simp [hp])
  · have zero : ∀ i < 4, ∀ s : ℝ, ((edgePoint i s).1 - (edgePoint i s).1 ^ 2) * ((edgePoint i s).2 - (edgePoint i s).2 ^ 2) = 0 := by
      intro i hi s
      rcases four_cases hi with rfl | rfl | rfl | rfl <;> simp [edgePoint]
    intro p _ q _ _ i hi k hk _ Y _ s _ _
    simp only [zero i hi, zero k hk, ite_self]

/-- A field on the cube: `(x - x², 0)` on the first patch and zero on the other ones; its divergence is not zero. -/
example : (∀ p < 6, IsPatchSpline 3 2 4 1 ((fun p x => if p = 0 then x.1 - x.1 ^ 2 else 0 : Nat → ℝ × ℝ → ℝ) p)) ∧
    FlowAcross cubeCorner 6 4 (fun d p x => if d = 0 ∧ p = 0 then x.1 - x.1 ^ 2 else 0 : Nat → Nat → ℝ × ℝ → ℝ) := by
  constructor
  · intro p _
    by_cases hp : p = 0
    · refine C80_polynomials 3 2 4 1 (by omega) (by omega) (by omega) (by omega) (fun m l => ([0, 1, -1] : List ℝ).getD m 0 * ([1, 0] : List ℝ).getD l 0) _ ?_
      intro x
      simp only [hp, if_true, sum_range_succ, range_zero, sum_empty]
      simp
      ring
    · exact C80_polynomials 3 2 4 1 (by omega) (by omega) (by omega) (by omega) (fun _ _ => 0) _ (fun x => by simp [hp])
  · have zero : ∀ i < 4, ∀ (s : ℝ) (p : Nat), (if normalComponent i = 0 ∧ p = 0 then (edgePoint i s).1 - (edgePoint i s).1 ^ 2 else 0) = 0 := by
      intro i hi s p
      rcases four_cases hi with rfl | rfl | rfl | rfl <;> simp [edgePoint, normalComponent]
    intro p _ q _ _ i hi k hk _ Y _ s _ _
    simp only [zero i hi, zero k hk, smul_zero, add_zero]

end Bembel.Props
