import Verif.Props.NoCusps
import Verif.Props.Separation
/-!
# C89: all entries of the dense matrices are accurate on smooth surfaces
-/

namespace Bembel.Props
open Finset Mesh H2 Spec Util Duffy SuperSpace MeasureTheory
open scoped ContDiff

namespace Singular
open Bembel.Singular

variable {R : Type} [RCLike R]

section
variable (Q : Cubature ℝ) (hQ : ∀ i < Q.size, ClosedSquare (Q.xi i)) (F G : PointPair → R)
    (h : ∀ p ∈ Cube, F p = G p)
include hQ h

theorem congr2 : pairQuad Q (transformed2 F) = pairQuad Q (transformed2 G) := by
  rw [eq2, eq2]
  exact pairQuad_congr Q hQ _ _ fun p hp => sum_congr rfl fun k _ => by rw [h _ (pieces2.cube k p hp)]

theorem congr3 : pairQuad Q (transformed3 F) = pairQuad Q (transformed3 G) := by
  rw [eq3, eq3]
  exact pairQuad_congr Q hQ _ _ fun p hp => sum_congr rfl fun k _ => by rw [h _ (pieces3.cube k p hp)]

theorem congr4 : pairQuad Q (transformed4 F) = pairQuad Q (transformed4 G) := by
  rw [eq4, eq4]
  exact pairQuad_congr Q hQ _ _ fun p hp => sum_congr rfl fun k _ => by rw [h _ (pieces4.cube k p hp)]

end

theorem entry_quad (Q : Cubature ℝ) (F : PointPair → Nat → Nat → R) (k l : Nat) : pairQuad Q F k l = pairQuad Q fun x => F x k l := by
  unfold pairQuad
  simp only [Finset.sum_apply, Pi.smul_apply]

theorem entry2 (F : PointPair → Nat → Nat → R) (k l : Nat) : (fun x => transformed2 F x k l) = transformed2 fun x => F x k l := by
  funext x
  simp only [transformed2, Pi.add_apply, Pi.smul_apply]

theorem entry3 (F : PointPair → Nat → Nat → R) (k l : Nat) : (fun x => transformed3 F x k l) = transformed3 fun x => F x k l := by
  funext x
  simp only [transformed3, Pi.add_apply, Pi.smul_apply]

theorem entry4 (F : PointPair → Nat → Nat → R) (k l : Nat) : (fun x => transformed4 F x k l) = transformed4 fun x => F x k l := by
  funext x
  simp only [transformed4, Pi.add_apply, Pi.smul_apply]

/-- The value depends only on the rule of the selected degree. -/
theorem evaluate_reduce {SP E W : Type} [Zero E] [NormedAddCommGroup W] (order : Int) (p : Nat) (t : Mesh.Tree ℝ) (B : Addr → Ball W)
    (ev : SP → SP → E → E) (surf surf' : Addr → ℝ × ℝ → ℝ → SP) (GS : Nat → Cubature ℝ) (ffq : Addr → Nat → SP) (Q : Cubature ℝ)
    (hQ : ∀ k < Q.size, ClosedSquare (Q.xi k)) (a b : Addr) (ha : ∀ x, ClosedSquare x → ∀ w, surf a x w = surf' a x w)
    (hb : ∀ x, ClosedSquare x → ∀ w, surf b x w = surf' b x w)
    (fa : ∀ k < (GS (farfieldDegree order p).toNat).size, ffq a k =
        surf a ((GS (farfieldDegree order p).toNat).xi k) (getH t a * (GS (farfieldDegree order p).toNat).w k))
    (fb : ∀ k < (GS (farfieldDegree order p).toNat).size, ffq b k =
        surf b ((GS (farfieldDegree order p).toNat).xi k) (getH t b * (GS (farfieldDegree order p).toNat).w k))
    (hG : GS (pairDegree order p (compareElements t B a b).2 (t.level a)).toNat = Q) :
    evaluateBilinearForm order p t B ev surf GS ffq a b =
      evaluateBilinearForm order p t B ev surf' (fun _ => Q) (fun a k => surf' a (Q.xi k) (getH t a * Q.w k)) a b := by
  rw [← evaluateBilinearForm_congr ev order p t B surf surf' (fun _ => Q) (fun _ => hQ) _ a b ha hb]
  unfold evaluateBilinearForm
  simp only [hG]
  split_ifs with h1 h2
  · split <;> try rfl
    congr 1
    rw [h2] at hG
    rw [hG] at fa fb
    unfold integrate0
    refine foldl_range_congr _ _ _ (fun s i hi => foldl_range_congr _ _ _ (fun s j hj => ?_) _) _
    rw [fa i hi, fb j hj, ha _ (hQ i hi), hb _ (hQ j hj)]
  · rfl
  · rfl

section
variable (op : Operator R) (T : (P M d a i : Nat) → ℝ × ℝ → ℝ) (hop : Contracts op T) (hpos : PositionOnly op)
    {W : Type} (near : W → W → Bool) (corner : Nat → Nat → W) (P M : Nat) (hP : 0 < P)
    (t : Mesh.Tree ℝ) (ht : initElementTree near corner P M = some t)
    (geo : Nat → ℝ × ℝ → V3 × V3 × V3) (hreg : RegularPatches P geo)
include hop hpos hP ht hreg

/-- The integrand in terms of the density. -/
theorem integrand_density (p : Nat) (jr : Nat → ℝ) (jk : Nat → R) (a b : Addr) (ha : IsNode P M a) (hb : IsNode P M b)
    (i j r c : Nat) (hi : i < op.vd) (hj : j < op.vd) (hr : r < (p + 1) * (p + 1)) (hc : c < (p + 1) * (p + 1)) (w w' : ℝ) (x : PointPair)
    (hx : x ∈ Cube) :
    op.integrand jr jk p M (map2surface t geo a x.1 w) (map2surface t geo b x.2 w') 0 (i * ((p + 1) * (p + 1)) + r) (j * ((p + 1) * (p + 1)) + c) =
      algebraMap ℝ R (w * w') * density op T t geo p M a b i j r c x := by
  obtain ⟨q1, q2⟩ := cube_square hx
  have reg := node_regular near corner P M hP t ht geo hreg M le_rfl
  rw [(hop jr jk p M (map2surface t geo a x.1 w) (map2surface t geo b x.2 w') 0 (reg a ha _ q1 _) (reg b hb _ q2 _)).1 i hi j hj r hr c hc]
  simp only [Pi.zero_apply, zero_add]
  unfold density
  congr 1
  refine sum_congr rfl fun α _ => sum_congr rfl fun β _ => ?_
  have e := hpos (map2surface t geo a x.1 w) (map2surface t geo b x.2 w') x.1 x.2 1 1 (i * op.nc + α) (j * op.nc + β)
  simp only [map2surface] at e ⊢
  rw [← e]
  ring

end

section
variable (op : Operator R) (T : (P M d a i : Nat) → ℝ × ℝ → ℝ) (hop : Contracts op T) (hs : SingularKernel op) (hk : Interpol.SmoothKernel op)
    (hpos : PositionOnly op) (hT : ∀ p M d a i, ContDiff ℝ ∞ (T p M d a i))
    (near : V3 → V3 → Bool) (corner : Nat → Nat → V3) (P M : Nat) (hP : 0 < P) (hM : 1 ≤ M) (hc : ConformingPatches near corner P)
    (ho : OrientedPatches corner P)
    (geo : Nat → ℝ × ℝ → V3 × V3 × V3) (hreg : RegularPatches P geo) (hsm : SmoothSurface P geo)
    (hw : Watertight corner P fun p s => (geo p s).1) (hemb : Embedded corner P geo)
    (t : Mesh.Tree ℝ) (ht : initElementTree near corner P M = some t) (junk : Nat → V3) (B0 B : Addr → Ball V3)
    (hB : computeElementEnclosings t (fun p s => (geo p s).1) junk B0 = some B) (es : EigenSolver) (hes : SolverCorrect es)
include hop hs hk hpos hT hP hM hc ho hreg hsm hw hemb ht hB hes

theorem all_entries (hg : Gaps t geo P M) : AllEntriesAccurate es op t B geo P M := by
  intro p κ
  let N := (p + 1) * (p + 1)
  have N0 : 0 < N := by positivity
  obtain ⟨tm, m1, m2⟩ := C44_mesh (K := ℝ) near corner P M hP hc ho
  obtain rfl : t = tm := Option.some.inj (ht.symm.trans m1)
  have cls : ∀ a b, IsNode P M a → IsNode P M b → a = b ∨ (a ≠ b ∧ (ShareNothing (t.vert a) (t.vert b) ∨
      (∃ r s, ShareVertex (t.vert a) (t.vert b) r s) ∨ ∃ r s, ShareEdge (t.vert a) (t.vert b) r s)) := fun a b ha hb => by
    by_cases h : a = b
    · exact Or.inl h
    · exact Or.inr ⟨h, m2 M hM le_rfl a b ha hb h⟩
  obtain ⟨C, C0, hC⟩ := Compress.fin_bound ({x : Addr × Addr × Nat × Nat | (∃ l ≤ M, IsNode P l x.1) ∧ (∃ l ≤ M, IsNode P l x.2.1) ∧
      x.2.2.1 < op.vd * N ∧ x.2.2.2 < op.vd * N})
    ((((Compress.nodes_finite P M).prod ((Compress.nodes_finite P M).prod ((Set.finite_lt_nat _).prod (Set.finite_lt_nat _))))).subset
      fun x hx => ⟨hx.1, hx.2.1, hx.2.2.1, hx.2.2.2⟩)
    (fun x C => IsNode P M x.1 → IsNode P M x.2.1 →
      let F := density op T t geo p M x.1 x.2.1 (x.2.2.1 / N) (x.2.2.2 / N) (x.2.2.1 % N) (x.2.2.2 % N)
      Integrable F μ4 ∧ ∀ order n, n ≤ order →
      (x.1 = x.2.1 → ‖pairQuad (gaussSquare es order n) (transformed2 F) - ∫ x, F x ∂μ4‖ ≤ C / ((n : ℝ) + 1) ^ κ) ∧
      (x.1 ≠ x.2.1 → ShareNothing (t.vert x.1) (t.vert x.2.1) → ‖pairQuad (gaussSquare es order n) F - ∫ x, F x ∂μ4‖ ≤ C / ((n : ℝ) + 1) ^ κ) ∧
      (∀ u v, x.1 ≠ x.2.1 → ShareVertex (t.vert x.1) (t.vert x.2.1) u v →
        ‖pairQuad (gaussSquare es order n) (transformed4 (rotated u v F)) - ∫ x, F x ∂μ4‖ ≤ C / ((n : ℝ) + 1) ^ κ) ∧
      (∀ u v, x.1 ≠ x.2.1 → ShareEdge (t.vert x.1) (t.vert x.2.1) u v →
        ‖pairQuad (gaussSquare es order n) (transformed3 (rotated u v F)) - ∫ x, F x ∂μ4‖ ≤ C / ((n : ℝ) + 1) ^ κ))
    (fun x C C' hCC h h1 h2 => by
      obtain ⟨g1, g2⟩ := h h1 h2
      refine ⟨g1, fun order n hn => ?_⟩
      obtain ⟨k1, k2, k3, k4⟩ := g2 order n hn
      have up : C / ((n : ℝ) + 1) ^ κ ≤ C' / ((n : ℝ) + 1) ^ κ := div_le_div_of_nonneg_right hCC (by positivity)
      exact ⟨fun e => (k1 e).trans up, fun e e' => (k2 e e').trans up, fun u v e e' => (k3 u v e e').trans up, fun u v e e' => (k4 u v e e').trans up⟩)
    (fun x _ => by
      by_cases h1 : IsNode P M x.1
      · by_cases h2 : IsNode P M x.2.1
        · obtain ⟨C, hC⟩ := pair_rate op hs hk hpos T hT near corner P M hP hc geo hreg hsm hw hemb t ht es hes p κ hg x.1 x.2.1 h1 h2 (cls _ _ h1 h2)
            (x.2.2.1 / N) (x.2.2.2 / N) (x.2.2.1 % N) (x.2.2.2 % N)
          exact ⟨C, fun _ _ => hC⟩
        · exact ⟨0, fun _ h => absurd h h2⟩
      · exact ⟨0, fun h => absurd h h1⟩)
  refine ⟨C, fun a b ha hb jr jk => ?_⟩
  have split : ∀ k, k < op.vd * N → k / N < op.vd ∧ k % N < N ∧ k / N * N + k % N = k := fun k hk =>
    ⟨(Nat.div_lt_iff_lt_mul N0).2 hk, Nat.mod_lt _ N0, Nat.div_add_mod' k N⟩
  have dens : ∀ k < op.vd * N, ∀ l < op.vd * N, ∀ (w w' : ℝ), ∀ x ∈ Cube,
      op.integrand jr jk p M (map2surface t geo a x.1 w) (map2surface t geo b x.2 w') 0 k l =
      algebraMap ℝ R (w * w') * density op T t geo p M a b (k / N) (l / N) (k % N) (l % N) x := fun k hk l hl w w' x hx => by
    obtain ⟨k1, k2, k3⟩ := split k hk
    obtain ⟨l1, l2, l3⟩ := split l hl
    have := integrand_density op T hop hpos near corner P M hP t ht geo hreg p jr jk a b ha hb (k / N) (l / N) (k % N) (l % N) k1 l1 k2 l2 w w' x hx
    rwa [show (p + 1) * (p + 1) = N from rfl, k3, l3] at this
  have fact : ∀ k < op.vd * N, ∀ l < op.vd * N, _ := fun k hk l hl => hC (a, b, k, l) ⟨⟨M, le_rfl, ha⟩, ⟨M, le_rfl, hb⟩, hk, hl⟩ ha hb
  simp only [] at fact
  refine ⟨fun k hk l hl => ?_, fun GS ffq hff hdeg order i hio hGi => ?_⟩
  · have := ((fact k hk l hl).1.const_mul (algebraMap ℝ R (getH t a * getH t b)))
    refine Integrable.congr (μ := μ4) this ?_
    filter_upwards [mem_ae] with x hx using (dens k hk l hl _ _ x hx).symm
  · obtain ⟨tb, b1, b2, -⟩ := tree_facts (K := ℝ) near corner P M hP
    obtain rfl : t = tb := Option.some.inj (ht.symm.trans b1)
    have lv : ∀ a, IsNode P M a → t.level a = M := fun a ha => by
      obtain ⟨_, e, _⟩ := b2 M le_rfl a (mem_leaves.2 ha)
      rw [e]; exact ha.2.1
    have hh : ∀ a, IsNode P M a → getH t a = 1 / 2 ^ M := fun a ha => by unfold getH; rw [lv a ha]
    let surf' := map2surface t (extendGeo P geo)
    let Q := gaussSquare es order i
    have hQ : ∀ k < Q.size, ClosedSquare (Q.xi k) := gauss_closed es hes order i hio
    have ext : ∀ a, IsNode P M a → ∀ x, ClosedSquare x → ∀ w, map2surface t geo a x w = surf' a x w := fun a ha x hx w =>
      map2surface_extend near corner P M hP t ht geo M le_rfl a ha x hx w
    have red := evaluate_reduce op.order p t B (op.integrand jr jk p M) (map2surface t geo) surf' GS ffq Q hQ a b (ext a ha) (ext b hb) (hff a ha)
      (hff b hb) (by rw [lv a ha]; exact hGi)
    obtain ⟨tc, c1, Bc, c2, c3⟩ := C45_pair near corner P M hP hc (fun p s => (geo p s).1) hw junk B0 (op.integrand jr jk p M) surf'
      (fun a b x => op.integrand jr jk p M (surf' a x.1 1) (surf' b x.2 1) 0)
      (fun a b => contracts_adds hop (fun p1 p2 w1 w2 α β => hpos p1 p2 p1.xi p2.xi w1 w2 α β) t (extendGeo P geo)
        (fun a xi w => extendGeo_regular P geo hreg _ _) jr jk p M a b) op.order p (fun _ => Q)
      (fun a k => surf' a (Q.xi k) (getH t a * Q.w k)) (fun a ha k _ => by rw [hh a ha])
    obtain rfl : t = tc := Option.some.inj (ht.symm.trans c1)
    obtain rfl : B = Bc := Option.some.inj (hB.symm.trans c2)
    obtain ⟨v1, v2, v3, v4⟩ := c3 a b ha hb hdeg
    have entry : ∀ k < op.vd * N, ∀ l < op.vd * N, ∀ x ∈ Cube, op.integrand jr jk p M (surf' a x.1 1) (surf' b x.2 1) 0 k l =
        density op T t geo p M a b (k / N) (l / N) (k % N) (l % N) x := fun k hk l hl x hx => by
      obtain ⟨q1, q2⟩ := cube_square hx
      rw [← ext a ha _ q1, ← ext b hb _ q2, dens k hk l hl 1 1 x hx]
      simp
    have exact_int : ∀ k < op.vd * N, ∀ l < op.vd * N, exactEntry t op (map2surface t geo) p M jr jk a b k l =
        algebraMap ℝ R ((1 / 2 ^ M) ^ 2) * ∫ x, density op T t geo p M a b (k / N) (l / N) (k % N) (l % N) x ∂μ4 := fun k hk l hl => by
      obtain ⟨k1, k2, k3⟩ := split k hk
      obtain ⟨l1, l2, l3⟩ := split l hl
      have := Smooth.exact_eq op T hop hpos near corner P M hP t ht geo hreg p jr jk a b ha hb (k / N) (l / N) k1 l1 (k % N) (l % N) k2 l2
      rw [show (p + 1) * (p + 1) = N from rfl, k3, l3] at this
      rw [this, ← integral_const_mul, ← integral4_eq _ ((fact k hk l hl).1.const_mul _), hh a ha, hh b hb, sq]
      rfl
    have h1 : ((1 : ℝ) / 2 ^ M) ^ 2 ≤ 1 := by
      refine pow_le_one₀ (by positivity) ?_
      rw [div_le_one (by positivity)]
      exact one_le_pow₀ (by norm_num)
    have final : ∀ (x : R) k, k < op.vd * N → ∀ l, l < op.vd * N → ‖x - ∫ x, density op T t geo p M a b (k / N) (l / N) (k % N) (l % N) x ∂μ4‖ ≤ C / ((i : ℝ) + 1) ^ κ →
        ‖((1 / 2 ^ M : ℝ) ^ 2 • x) - exactEntry t op (map2surface t geo) p M jr jk a b k l‖ ≤ C / ((i : ℝ) + 1) ^ κ := fun x k hk l hl h => by
      rw [exact_int k hk l hl, Algebra.smul_def, ← mul_sub, norm_mul]
      have : ‖algebraMap ℝ R ((1 / 2 ^ M) ^ 2)‖ ≤ 1 := by
        rw [norm_algebraMap', Real.norm_eq_abs, abs_of_nonneg (by positivity)]
        exact h1
      exact (mul_le_of_le_one_left (norm_nonneg _) this).trans h
    rcases cls a b ha hb with hab | ⟨hab, hn | ⟨u, v, hv⟩ | ⟨u, v, hv⟩⟩
    · refine ⟨_, red.trans (v1 hab), fun k hk l hl => ?_⟩
      refine final _ k hk l hl ?_
      rw [entry_quad, entry2, congr2 Q hQ _ _ (entry k hk l hl)]
      exact ((fact k hk l hl).2 order i hio).1 hab
    · refine ⟨_, red.trans (v2 hab hn), fun k hk l hl => ?_⟩
      refine final _ k hk l hl ?_
      rw [entry_quad, pairQuad_congr Q hQ _ _ (entry k hk l hl)]
      exact ((fact k hk l hl).2 order i hio).2.1 hab hn
    · refine ⟨_, red.trans (v3 u v hab hv), fun k hk l hl => ?_⟩
      refine final _ k hk l hl ?_
      rw [entry_quad, entry4, congr4 Q hQ (fun x => rotated u v (fun x => op.integrand jr jk p M (surf' a x.1 1) (surf' b x.2 1) 0) x k l) (rotated u v (density op T t geo p M a b (k / N) (l / N) (k % N) (l % N)))
        fun x hx => entry k hk l hl _ (rotated_cube u v x hx)]
      exact ((fact k hk l hl).2 order i hio).2.2.1 u v hab hv
    · refine ⟨_, red.trans (v4 u v hab hv), fun k hk l hl => ?_⟩
      refine final _ k hk l hl ?_
      rw [entry_quad, entry3, congr3 Q hQ (fun x => rotated u v (fun x => op.integrand jr jk p M (surf' a x.1 1) (surf' b x.2 1) 0) x k l) (rotated u v (density op T t geo p M a b (k / N) (l / N) (k % N) (l % N)))
        fun x hx => entry k hk l hl _ (rotated_cube u v x hx)]
      exact ((fact k hk l hl).2 order i hio).2.2.2 u v hab hv

end
end Singular
open Singular Bembel.Singular Smooth

/-- All entries that the library computes for the operator are accurate on every smooth embedded surface without cusps. -/
def AccurateOnSurfaces {R : Type} [RCLike R] (es : EigenSolver) (op : Operator R) : Prop :=
  ∀ (near : V3 → V3 → Bool) (corner : Nat → Nat → V3) (P M : Nat), 0 < P → 1 ≤ M → ConformingPatches near corner P → OrientedPatches corner P →
    ∀ geo : Nat → ℝ × ℝ → V3 × V3 × V3, RegularPatches P geo → SmoothSurface P geo → Watertight corner P (fun p s => (geo p s).1) →
    Embedded corner P geo → NoCusps P geo → ∀ t : Mesh.Tree ℝ, initElementTree near corner P M = some t → ∀ (junk : Nat → V3) (B0 B : Addr → Ball V3),
    computeElementEnclosings t (fun p s => (geo p s).1) junk B0 = some B → AllEntriesAccurate es op t B geo P M

theorem accurate {R : Type} [RCLike R] (es : EigenSolver) (hes : SolverCorrect es) (op : Operator R) (T : (P M d a i : Nat) → ℝ × ℝ → ℝ) (hop : Contracts op T)
    (hpos : PositionOnly op) (hs : SingularKernel op) (hk : Interpol.SmoothKernel op) (hT : ∀ p M d a i, ContDiff ℝ ∞ (T p M d a i)) :
    AccurateOnSurfaces es op := fun near corner P M hP hM hc ho geo hreg hsm hw hemb hcusp t ht junk B0 B hB =>
  all_entries op T hop hs hk hpos hT near corner P M hP hM hc ho geo hreg hsm hw hemb t ht junk B0 B hB es hes
    (gaps_of_cusps near corner P M hP hc geo hreg hsm hw hemb hcusp t ht)

/-- C89: the matrix entries of identical, adjacent and distant elements are accurate for every boundary integral operator of the Laplace,
Helmholtz and Maxwell equations, on every smooth embedded surface without cusps. -/
theorem C89_operators (es : EigenSolver) (hes : SolverCorrect es) (k : ℂ) :
    AccurateOnSurfaces es Operator.laplaceSL ∧ AccurateOnSurfaces es Operator.laplaceDL ∧ AccurateOnSurfaces es Operator.laplaceADL ∧
    AccurateOnSurfaces es Operator.laplaceHyp ∧ AccurateOnSurfaces es (Operator.helmholtzSL k) ∧ AccurateOnSurfaces es (Operator.helmholtzDL k) ∧
    AccurateOnSurfaces es (Operator.helmholtzADL k) ∧ AccurateOnSurfaces es (Operator.helmholtzHyp k) ∧
    AccurateOnSurfaces es (Operator.maxwellSL k) := by
  obtain ⟨c1, c2, c3, c4, c5, c6⟩ := C52_scalar k
  obtain ⟨q1, q2, q3, q4, q5, q6, q7, q8, q9⟩ := C63_position_only k
  exact ⟨accurate es hes _ _ c1 q1 k_laplaceSL Interpol.sk_laplaceSL valueT_smooth, accurate es hes _ _ c2 q2 k_laplaceDL Interpol.sk_laplaceDL valueT_smooth,
    accurate es hes _ _ c3 q3 k_laplaceADL Interpol.sk_laplaceADL valueT_smooth, accurate es hes _ _ C52_laplaceHyp q4 k_laplaceHyp Interpol.sk_laplaceHyp gradT_smooth,
    accurate es hes _ _ c4 q5 (k_helmholtzSL k) (Interpol.sk_helmholtzSL k) valueT_smooth,
    accurate es hes _ _ c5 q6 (k_helmholtzDL k) (Interpol.sk_helmholtzDL k) valueT_smooth,
    accurate es hes _ _ c6 q7 (k_helmholtzADL k) (Interpol.sk_helmholtzADL k) valueT_smooth,
    accurate es hes _ _ (C52_helmholtzHyp k) q8 (k_helmholtzHyp k) (Interpol.sk_helmholtzHyp k) valueGradT_smooth,
    accurate es hes _ _ (C52_maxwell k) q9 (k_maxwellSL k) (Interpol.sk_maxwellSL k) divT_smooth⟩

/-- C89: the compressed matrices on smooth surfaces.  There are constants `C κ`, which do not depend on the number of interpolation
points, such that the product with the assembled H2-matrix is `res + alpha * Tᵀ A T * rhs`, where every entry of `A` differs from the exact
integral by at most `C κ / (d + 1) ^ κ`, where `d` is the quadrature degree that the library selects for the two elements, or by at most `C κ / n ^ κ`,
for every `κ`, where `n` is the number of interpolation points. -/
theorem C89_product {R : Type} [RCLike R] (es : EigenSolver) (op : Operator R) (hvd : 0 < op.vd) (hnc : 0 < op.nc)
    (T : (P M d a i : Nat) → ℝ × ℝ → ℝ) (mom : MomentEnv → (p cl r np : Nat) → List (EMat ℝ)) (hmom : MomentsFor op.vd op.nc T mom)
    (hrap : RapidlyAccurate es op T) (hacc : AccurateOnSurfaces es op)
    (near : V3 → V3 → Bool) (corner : Nat → Nat → V3) (P M : Nat) (hP : 0 < P) (hM : 1 ≤ M) (hc : ConformingPatches near corner P)
    (ho : OrientedPatches corner P) (geo : Nat → ℝ × ℝ → V3 × V3 × V3) (hgeo : RegularPatches P geo) (hsm : SmoothSurface P geo)
    (hw : Watertight corner P fun p s => (geo p s).1) (hemb : Embedded corner P geo) (hcusp : NoCusps P geo)
    (t : Mesh.Tree ℝ) (ht : initElementTree near corner P M = some t) (junkB : Nat → V3) (B0 B : Addr → Ball V3)
    (hB : computeElementEnclosings t (fun p s => (geo p s).1) junkB B0 = some B) (eta : ℝ) (heta : 0 ≤ eta)
    (minLevel : Int) (hm : 0 ≤ minLevel) (p : Nat) (hdeg : ∀ a b, IsNode P M a → IsNode P M b → pairDegree op.order p (compareElements t B a b).2 M < 50)
    (trans : EMat R) (htr : trans.rows = op.vd * ((p + 1) * (p + 1) * t.nElements)) (jr : Nat → ℝ) (jk : Nat → R)
    (GS : Nat → Cubature ℝ) (hGS : ∀ k ≤ 50, GS k = gaussSquare es 50 k) (ffq : Addr → Nat → SurfPt)
    (hffq : ∀ a, IsNode P M a → ∀ k < (GS (farfieldDegree op.order p).toNat).size, ffq a k =
        map2surface t geo a ((GS (farfieldDegree op.order p).toNat).xi k) (getH t a * (GS (farfieldDegree op.order p).toNat).w k)) :
    ∃ C : Nat → ℝ, ∀ (E : MomentEnv) (n : Nat), 0 < n → E.pts n = chebychevRoots n →
      ∀ order, gaussIndex n p ≤ order → E.GL (gaussIndex n p) = gaussLegendre es order (gaussIndex n p) →
      let pair := evaluateBilinearForm op.order p t B (op.integrand jr jk p M) (map2surface t geo) GS ffq
      ∃ A : Nat → Nat → R,
      (∀ a b, IsNode P M a → IsNode P M b → ∀ i < op.vd, ∀ j < op.vd, ∀ r < (p + 1) * (p + 1), ∀ c < (p + 1) * (p + 1),
        let err := ‖A (i * ((p + 1) * (p + 1) * t.nElements) + ((p + 1) * (p + 1) * t.id a + r))
            (j * ((p + 1) * (p + 1) * t.nElements) + ((p + 1) * (p + 1) * t.id b + c)) -
          exactEntry t op (SuperSpace.map2surface t geo) p M jr jk a b (i * ((p + 1) * (p + 1)) + r) (j * ((p + 1) * (p + 1)) + c)‖
        (∀ κ : Nat, err ≤ C κ / (((pairDegree op.order p (compareElements t B a b).2 M).toNat : ℝ) + 1) ^ κ) ∨ ∀ κ : Nat, err ≤ C κ / (n : ℝ) ^ κ) ∧
      ∀ (junk : Nat → Nat → R) (junkE junkT : Nat → Nat → ℝ) (M0 : LeafMem R) (order : List Nat),
        order.Perm (List.range (BlockCluster.leafPointers (BlockCluster.initBlockClusterTree t B eta minLevel)).length) →
        ∃ H, initH2Matrix junk junkE junkT M0 op t B eta minLevel p trans (SuperSpace.map2surface t geo) pair E mom n order = some H ∧
        ∀ (junk : Nat → Nat → R) (S : Schedules H) (rhs res : EMat R) (alpha : R),
          rhs.rows = trans.cols → res.rows = trans.cols → res.cols = rhs.cols →
          ∃ res', run junk H S rhs res alpha = some res' ∧ res'.rows = res.rows ∧ res'.cols = res.cols ∧
          ∀ i < res.rows, ∀ c < res.cols, res'.at' i c = res.at' i c + alpha * ∑ r ∈ range trans.rows,
            ∑ k ∈ range trans.rows, ∑ d ∈ range trans.cols, trans.at' r i * A r k * trans.at' k d * rhs.at' d c := by
  have hsm' : SmoothPatches P geo := fun q hq => by
    obtain ⟨g, hg, eg⟩ := hsm q hq
    have hd : ∀ v : ℝ × ℝ, ContDiff ℝ ∞ fun x => fderiv ℝ g x v := fun v => (hg.fderiv_right (m := ∞) (by norm_cast)).clm_apply contDiff_const
    exact ⟨fun x => (g x, fderiv ℝ g x (1, 0), fderiv ℝ g x (0, 1)), fun x _ => (hg.prodMk ((hd _).prodMk (hd _))).contDiffAt, eg⟩
  obtain ⟨C1, h1⟩ := C88_surface es op hvd hnc T mom hmom hrap near corner P M hP hc geo hgeo hsm' hw hemb t ht junkB B0 B hB eta heta minLevel hm p trans htr
    jr jk
  have h2 := fun κ => hacc near corner P M hP hM hc ho geo hgeo hsm hw hemb hcusp t ht junkB B0 B hB p κ
  choose C2 h2 using h2
  have le50 : ∀ d : Int, d < 50 → d.toNat ≤ 50 := fun d hd => by omega
  have ex : ∀ a b, ∃ v, IsNode P M a → IsNode P M b → evaluateBilinearForm op.order p t B (op.integrand jr jk p M) (map2surface t geo) GS ffq a b = some v ∧
      ∀ κ : Nat, ∀ k < op.vd * ((p + 1) * (p + 1)), ∀ l < op.vd * ((p + 1) * (p + 1)), ‖v k l - exactEntry t op (SuperSpace.map2surface t geo) p M jr jk a b k l‖ ≤
        C2 κ / (((pairDegree op.order p (compareElements t B a b).2 M).toNat : ℝ) + 1) ^ κ := fun a b => by
    by_cases ha : IsNode P M a
    · by_cases hb : IsNode P M b
      · have pw := fun κ => (h2 κ a b ha hb jr jk).2 GS ffq hffq (hdeg a b ha hb) 50 _ (le50 _ (hdeg a b ha hb)) (hGS _ (le50 _ (hdeg a b ha hb)))
        obtain ⟨v, v1, -⟩ := pw 0
        refine ⟨v, fun _ _ => ⟨v1, fun κ => ?_⟩⟩
        obtain ⟨w, w1, w2⟩ := pw κ
        obtain rfl : v = w := Option.some.inj (v1.symm.trans w1)
        exact w2
      · exact ⟨fun _ _ => 0, fun _ h => absurd h hb⟩
    · exact ⟨fun _ _ => 0, fun h => absurd h ha⟩
  choose v hv using ex
  refine ⟨fun κ => max (C1 κ) (C2 κ), fun E n hn hx order hord hG => ?_⟩
  obtain ⟨A, a1, a2⟩ := h1 _ v (fun a b ha hb => (hv a b ha hb).1) E n hn hx order hord hG
  refine ⟨A, fun a b ha hb i hi j hj r hr c hc => ?_, a2⟩
  have lt : ∀ i r, i < op.vd → r < (p + 1) * (p + 1) → i * ((p + 1) * (p + 1)) + r < op.vd * ((p + 1) * (p + 1)) := fun i r hi hr =>
    calc i * ((p + 1) * (p + 1)) + r < i * ((p + 1) * (p + 1)) + (p + 1) * (p + 1) := by omega
      _ = (i + 1) * ((p + 1) * (p + 1)) := by ring
      _ ≤ _ := Nat.mul_le_mul_right _ hi
  rcases a1 a b ha hb i hi j hj r hr c hc with h | h
  · refine Or.inl fun κ => ?_
    rw [h]
    exact ((hv a b ha hb).2 κ _ (lt i r hi hr) _ (lt j c hj hc)).trans (div_le_div_of_nonneg_right (le_max_right _ _) (by positivity))
  · refine Or.inr fun κ => ?_
    exact (h κ).trans (div_le_div_of_nonneg_right (le_max_left _ _) (by positivity))

namespace Singular

theorem sheet_surface : SmoothSurface 2 sheet := by
  have h2 : ∀ a b c : ℝ, (![a, b, c] : Fin 3 → ℝ) 2 = c := fun _ _ _ => rfl
  intro p _
  refine ⟨fun x => (sheet p x).1, ?_, fun x _ => ?_⟩
  · unfold sheet
    by_cases hp : p = 0
    · simp only [hp, if_true]; exact v3_smooth (by fun_prop) (by fun_prop) (by fun_prop)
    · simp only [hp, if_false]; exact v3_smooth (by fun_prop) (by fun_prop) (by fun_prop)
  · have key : ∀ (f g h : ℝ × ℝ → ℝ) (f' g' h' : ℝ × ℝ →L[ℝ] ℝ), HasFDerivAt f f' x → HasFDerivAt g g' x → HasFDerivAt h h' x → ∀ v,
        fderiv ℝ (fun x => (WithLp.toLp 2 ![f x, g x, h x] : V3)) x v = WithLp.toLp 2 ![f' v, g' v, h' v] := fun f g h f' g' h' hf hg hh v => by
      have d : DifferentiableAt ℝ (fun x => (WithLp.toLp 2 ![f x, g x, h x] : V3)) x := by
        rw [differentiableAt_euclidean]
        intro i
        fin_cases i
        · exact hf.differentiableAt
        · exact hg.differentiableAt
        · exact hh.differentiableAt
      have comp : ∀ i, (fderiv ℝ (fun x => (WithLp.toLp 2 ![f x, g x, h x] : V3)) x v) i = fderiv ℝ (fun x => (![f x, g x, h x] : Fin 3 → ℝ) i) x v := fun i => by
        have := (hasFDerivWithinAt_univ.1 (hasFDerivWithinAt_euclidean.1 d.hasFDerivAt.hasFDerivWithinAt i)).fderiv
        have e : fderiv ℝ (fun x => (![f x, g x, h x] : Fin 3 → ℝ) i) x = _ := this
        rw [e]; rfl
      ext i
      rw [comp]
      fin_cases i
      · exact congrArg (· v) hf.fderiv
      · exact congrArg (· v) hg.fderiv
      · exact congrArg (· v) hh.fderiv
    have f1 : HasFDerivAt (fun x : ℝ × ℝ => x.1) (ContinuousLinearMap.fst ℝ ℝ ℝ) x := hasFDerivAt_fst
    have f2 : HasFDerivAt (fun x : ℝ × ℝ => x.2) (ContinuousLinearMap.snd ℝ ℝ ℝ) x := hasFDerivAt_snd
    by_cases hp : p = 0
    · have e : (fun x => (sheet p x).1) = fun x => (WithLp.toLp 2 ![x.1, x.2, 0] : V3) := by funext x; simp [sheet, hp]
      rw [e, key _ _ _ _ _ _ f1 f2 (hasFDerivAt_const 0 x), key _ _ _ _ _ _ f1 f2 (hasFDerivAt_const 0 x)]
      simp [sheet, hp]
    · have e : (fun x => (sheet p x).1) = fun x => (WithLp.toLp 2 ![1 + x.1 ^ 2, x.2, x.1] : V3) := by funext x; simp [sheet, hp]
      have f3 := (f1.pow 2).const_add 1
      rw [e, key _ _ _ _ _ _ f3 f2 f1, key _ _ _ _ _ _ f3 f2 f1]
      simp [sheet, hp]

theorem sheet_cusp : NoCusps 2 sheet := by
  have h2 : ∀ a b c : ℝ, (![a, b, c] : Fin 3 → ℝ) 2 = c := fun _ _ _ => rfl
  intro p hp q hq hpq x y u v hx hy hu hv h hd
  have e0 := congrFun (congrArg WithLp.ofLp h) 0
  have e1 := congrFun (congrArg WithLp.ofLp h) 1
  have e2 := congrFun (congrArg WithLp.ofLp h) 2
  have d0 := congrFun (congrArg WithLp.ofLp hd) 0
  have d1 := congrFun (congrArg WithLp.ofLp hd) 1
  have d2 := congrFun (congrArg WithLp.ofLp hd) 2
  interval_cases p <;> interval_cases q
  · exact absurd rfl hpq
  · simp [sheet, h2] at e0 e1 e2 d0 d1 d2
    have v1 := d2
    have y1 := e2
    simp [sheet, e1, d1, ← d2, ← e2] at e0 d0 ⊢
    linarith
  · simp [sheet, h2] at e0 e1 e2 d0 d1 d2
    simp [sheet, e1, d1, d2, e2] at e0 d0 ⊢
    linarith
  · exact absurd rfl hpq

theorem sheet_oriented : OrientedPatches (fun p j => sheetVertex (sheetIndex p j)) 2 := by
  intro p hp q hq hpq i hi j hj h
  unfold patchEdge at h
  rcases Sym2.eq_iff.1 h with ⟨a, b⟩ | ⟨a, b⟩
  · exact absurd ⟨a, b⟩ (sheet_edge p q i j hp hq hpq hi hj).1
  · exact ⟨a, b⟩

end Singular

/-- The hypotheses are met: a flat and a curved patch with a common edge, thirty-two elements. -/
example (k : ℂ) : ∃ (es : EigenSolver) (near : V3 → V3 → Bool) (corner : Nat → Nat → V3) (t : Mesh.Tree ℝ) (B : Addr → Ball V3),
    initElementTree near corner 2 2 = some t ∧ AllEntriesAccurate es (Operator.maxwellSL k) t B sheet 2 2 := by
  obtain ⟨es, hes⟩ := solver_exists
  obtain ⟨t, h1, B, h2, -⟩ := C24_balls _ _ 2 2 (by norm_num) sheet_conforming (fun p s => (sheet p s).1) sheet_water (fun _ => 0) (fun _ => ⟨0, 0⟩)
  exact ⟨es, _, _, t, B, h1, (C89_operators es hes k).2.2.2.2.2.2.2.2 _ _ 2 2 (by norm_num) (by norm_num) sheet_conforming sheet_oriented sheet sheet_reg
    sheet_surface sheet_water sheet_embedded sheet_cusp t h1 _ _ B h2⟩

/-- The hypotheses of `C89_product` are met: the same surface and the Maxwell single layer operator, at every admissibility parameter. -/
example (k : ℂ) : ∃ (es : EigenSolver) (near : V3 → V3 → Bool) (corner : Nat → Nat → V3) (t : Mesh.Tree ℝ) (B : Addr → Ball V3),
    RapidlyAccurate es (Operator.maxwellSL k) divT ∧ AccurateOnSurfaces es (Operator.maxwellSL k) ∧ ConformingPatches near corner 2 ∧
    OrientedPatches corner 2 ∧ RegularPatches 2 sheet ∧ SmoothSurface 2 sheet ∧ Watertight corner 2 (fun p s => (sheet p s).1) ∧
    Embedded corner 2 sheet ∧ NoCusps 2 sheet ∧ initElementTree near corner 2 2 = some t ∧
    computeElementEnclosings t (fun p s => (sheet p s).1) (fun _ => 0) (fun _ => ⟨0, 0⟩) = some B := by
  obtain ⟨es, hes⟩ := solver_exists
  obtain ⟨t, h1, B, h2, -⟩ := C24_balls _ _ 2 2 (by norm_num) sheet_conforming (fun p s => (sheet p s).1) sheet_water (fun _ => 0) (fun _ => ⟨0, 0⟩)
  exact ⟨es, _, _, t, B, (C88_operators es hes k).2.2.2.2.2.2.2.2, (C89_operators es hes k).2.2.2.2.2.2.2.2, sheet_conforming, sheet_oriented,
    sheet_reg, sheet_surface, sheet_water, sheet_embedded, sheet_cusp, h1, h2⟩

end Bembel.Props
