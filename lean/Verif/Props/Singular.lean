import Verif.Lemmas.SingularElement
import Verif.Props.Dense
/-!
# C89: all entries of the dense matrices are accurate on smooth surfaces
-/

namespace Bembel.Props
open Finset Mesh H2 Spec Util Duffy SuperSpace MeasureTheory
open scoped ContDiff

namespace Singular
open Bembel.Singular

variable {R : Type} [RCLike R]

/-- The point of an element. -/
noncomputable def pt (t : Mesh.Tree ℝ) (geo : Nat → ℝ × ℝ → V3 × V3 × V3) (a : Addr) (x : ℝ × ℝ) : V3 := (map2surface t geo a x 1).f

/-- The integrand without the mesh width. -/
noncomputable def density (op : Operator R) (T : (P M d a i : Nat) → ℝ × ℝ → ℝ) (t : Mesh.Tree ℝ) (geo : Nat → ℝ × ℝ → V3 × V3 × V3) (p M : Nat)
    (a b : Addr) (i j r c : Nat) (x : PointPair) : R :=
  ∑ α ∈ range op.nc, ∑ β ∈ range op.nc, algebraMap ℝ R (T p M i α r x.1 * T p M j β c x.2) *
    op.fmm (map2surface t geo a x.1 1) (map2surface t geo b x.2 1) (i * op.nc + α) (j * op.nc + β)

/-- Lower bounds for the distance of points of touching elements. -/
structure Gaps (t : Mesh.Tree ℝ) (geo : Nat → ℝ × ℝ → V3 × V3 × V3) (P M : Nat) : Prop where
  same : ∀ a, IsNode P M a → ∃ c > 0, ∀ x y, ClosedSquare x → ClosedSquare y → c * ‖x - y‖ ≤ ‖pt t geo a x - pt t geo a y‖
  edge : ∀ a b, IsNode P M a → IsNode P M b → a ≠ b → ∀ r s, ShareEdge (t.vert a) (t.vert b) r s → ∃ c > 0, ∀ x y, ClosedSquare x → ClosedSquare y →
    c * (|x.1 + y.1 - 1| + x.2 + y.2) ≤ ‖pt t geo a (tau x.1 x.2 r) - pt t geo b (tau y.1 y.2 s)‖
  vertex : ∀ a b, IsNode P M a → IsNode P M b → a ≠ b → ∀ r s, ShareVertex (t.vert a) (t.vert b) r s → ∃ c > 0, ∀ x y, ClosedSquare x → ClosedSquare y →
    c * (‖x‖ + ‖y‖) ≤ ‖pt t geo a (tau x.1 x.2 r) - pt t geo b (tau y.1 y.2 s)‖

section
variable (near : V3 → V3 → Bool) (corner : Nat → Nat → V3) (P M : Nat) (hP : 0 < P) (hc : ConformingPatches near corner P)
    (geo : Nat → ℝ × ℝ → V3 × V3 × V3) (hreg : RegularPatches P geo) (hsm : SmoothSurface P geo)
    (hw : Watertight corner P fun p s => (geo p s).1) (hemb : Embedded corner P geo)
    (t : Mesh.Tree ℝ) (ht : initElementTree near corner P M = some t)
include hP hc hreg hsm hw hemb ht

/-- Identical elements. -/
theorem gaps_same (a : Addr) (ha : IsNode P M a) : ∃ c > 0, ∀ x y, ClosedSquare x → ClosedSquare y → c * ‖x - y‖ ≤ ‖pt t geo a x - pt t geo a y‖ := by
  obtain ⟨X, U, V, hX⟩ := element_sheet near corner P M hP t ht geo hreg hsm M le_rfl a ha
  have e : ∀ x, ClosedSquare x → pt t geo a x = X x := fun x hx => by unfold pt; rw [hX.eq x hx]
  obtain ⟨c, c0, h⟩ := regular_gap X hX.sheet.point (fun x y hx hy h => by
    rw [← e x hx, ← e y hy] at h
    exact (C44_contact near corner P M hP hc geo hw hemb t ht M le_rfl a a ha ha x y hx hy h).1 rfl) hX.inj
  exact ⟨c, c0, fun x y hx hy => by rw [e x hx, e y hy]; exact h x y hx hy⟩

end

/-- Elements without common points. -/
theorem density_smooth (op : Operator R) (hk : Interpol.SmoothKernel op) (hpos : PositionOnly op) (T : (P M d a i : Nat) → ℝ × ℝ → ℝ)
    (hT : ∀ p M d a i, ContDiff ℝ ∞ (T p M d a i)) {V : Type} (near : V → V → Bool) (corner : Nat → Nat → V)
    (P M : Nat) (hP : 0 < P) (t : Mesh.Tree ℝ) (ht : initElementTree near corner P M = some t) (geo : Nat → ℝ × ℝ → V3 × V3 × V3)
    (hreg : RegularPatches P geo) (hsm : SmoothPatches P geo) (p : Nat) (a b : Addr) (n1 : IsNode P M a) (n2 : IsNode P M b)
    (hs : Separated t geo a b) (i j r c : Nat) : SmoothPair fun y z => density op T t geo p M a b i j r c (y, z) := by
  unfold density
  exact Smooth.pair_sum _ _ fun α _ => Smooth.pair_sum _ _ fun β _ => Smooth.pair_mul (hT _ _ _ _ _) (hT _ _ _ _ _)
    (Smooth.pair_smooth op hk hpos near corner P M hP t ht geo hreg hsm M M le_rfl le_rfl a b n1 n2 hs _ _)

theorem density_paired (op : Operator R) (hpos : PositionOnly op) (T : (P M d a i : Nat) → ℝ × ℝ → ℝ) (t : Mesh.Tree ℝ) (geo : Nat → ℝ × ℝ → V3 × V3 × V3)
    (p M : Nat) (a b : Addr) (X U V Y U' V' : ℝ × ℝ → V3) (h1 : ElementSheet t geo a X U V) (h2 : ElementSheet t geo b Y U' V') (i j r c : Nat)
    (x : PointPair) (hx : x ∈ Cube) :
    density op T t geo p M a b i j r c x = paired op X U V Y U' V' (fun α => T p M i α r) (fun β => T p M j β c) i j x := by
  obtain ⟨q1, q2⟩ := cube_square hx
  unfold density paired
  refine sum_congr rfl fun α _ => sum_congr rfl fun β _ => ?_
  rw [h1.eq _ q1, h2.eq _ q2]
  congr 1
  exact (hpos ⟨x.1, 1, X x.1, U x.1, V x.1⟩ ⟨x.2, 1, Y x.2, U' x.2, V' x.2⟩ (0, 0) (0, 0) 1 1 _ _).symm

theorem rotated_cube (r s : Nat) (p : PointPair) (hp : p ∈ Cube) : (tau p.1.1 p.1.2 r, tau p.2.1 p.2.2 s) ∈ Cube :=
  square_cube (tau_square r _ (cube_square hp).1) (tau_square s _ (cube_square hp).2)

section
variable (op : Operator R) (hs : SingularKernel op) (hk : Interpol.SmoothKernel op) (hpos : PositionOnly op) (T : (P M d a i : Nat) → ℝ × ℝ → ℝ)
    (hT : ∀ p M d a i, ContDiff ℝ ∞ (T p M d a i))
    (near : V3 → V3 → Bool) (corner : Nat → Nat → V3) (P M : Nat) (hP : 0 < P) (hc : ConformingPatches near corner P)
    (geo : Nat → ℝ × ℝ → V3 × V3 × V3) (hreg : RegularPatches P geo) (hsm : SmoothSurface P geo)
    (hw : Watertight corner P fun p s => (geo p s).1) (hemb : Embedded corner P geo)
    (t : Mesh.Tree ℝ) (ht : initElementTree near corner P M = some t) (es : EigenSolver) (hes : SolverCorrect es) (p κ : Nat)
include hs hk hpos hT hP hc hreg hsm hw hemb ht hes

/-- The four cases for one entry. -/
theorem pair_rate (hg : Gaps t geo P M) (a b : Addr) (ha : IsNode P M a) (hb : IsNode P M b)
    (hcl : a = b ∨ (a ≠ b ∧ (ShareNothing (t.vert a) (t.vert b) ∨ (∃ r s, ShareVertex (t.vert a) (t.vert b) r s) ∨
      ∃ r s, ShareEdge (t.vert a) (t.vert b) r s))) (i j r c : Nat) :
    ∃ C, Integrable (density op T t geo p M a b i j r c) μ4 ∧ ∀ order n, n ≤ order →
      (a = b → ‖pairQuad (gaussSquare es order n) (transformed2 (density op T t geo p M a b i j r c)) -
        ∫ x, density op T t geo p M a b i j r c x ∂μ4‖ ≤ C / ((n : ℝ) + 1) ^ κ) ∧
      (a ≠ b → ShareNothing (t.vert a) (t.vert b) → ‖pairQuad (gaussSquare es order n) (density op T t geo p M a b i j r c) -
        ∫ x, density op T t geo p M a b i j r c x ∂μ4‖ ≤ C / ((n : ℝ) + 1) ^ κ) ∧
      (∀ u v, a ≠ b → ShareVertex (t.vert a) (t.vert b) u v →
        ‖pairQuad (gaussSquare es order n) (transformed4 (rotated u v (density op T t geo p M a b i j r c))) -
          ∫ x, density op T t geo p M a b i j r c x ∂μ4‖ ≤ C / ((n : ℝ) + 1) ^ κ) ∧
      (∀ u v, a ≠ b → ShareEdge (t.vert a) (t.vert b) u v →
        ‖pairQuad (gaussSquare es order n) (transformed3 (rotated u v (density op T t geo p M a b i j r c))) -
          ∫ x, density op T t geo p M a b i j r c x ∂μ4‖ ≤ C / ((n : ℝ) + 1) ^ κ) := by
  obtain ⟨X, U, V, hX⟩ := element_sheet near corner P M hP t ht geo hreg hsm M le_rfl a ha
  obtain ⟨Y, U', V', hY⟩ := element_sheet near corner P M hP t ht geo hreg hsm M le_rfl b hb
  have eX : ∀ x, ClosedSquare x → pt t geo a x = X x := fun x hx => by unfold pt; rw [hX.eq x hx]
  have eY : ∀ x, ClosedSquare x → pt t geo b x = Y x := fun x hx => by unfold pt; rw [hY.eq x hx]
  have hd := density_paired op hpos T t geo p M a b X U V Y U' V' hX hY i j r c
  have s1 : ∀ᵐ p ∂μ4, 0 < σ1 p := inside_ae.mono fun p h => inside1 p h.1 h.2
  have s2 : ∀ᵐ p ∂μ4, 0 < σ2 p := inside_ae.mono fun p h => inside2 p h.1 h.2
  have z0 : ClosedSquare (0, 0) := by norm_num [ClosedSquare]
  obtain ⟨t', g1, B, -, g3⟩ := C44_compare near corner P M hP hc (fun p s => (geo p s).1) hw (fun _ => 0) (fun _ => ⟨0, 0⟩)
  obtain rfl : t = t' := Option.some.inj (ht.symm.trans g1)
  rcases hcl with rfl | ⟨hab, hn | ⟨u, v, hv⟩ | ⟨u, v, hv⟩⟩
  · obtain ⟨c1, c0, hg⟩ := hg.same a ha
    have hd' := density_paired op hpos T t geo p M a a X U V X U V hX hX i j r c
    have reg := paired2 op hs X U V hX.sheet (fun α => T p M i α r) (fun β => T p M j β c) (fun α => hT _ _ _ _ _) (fun β => hT _ _ _ _ _) i j c1 c0
      (fun x y hx hy => by rw [← eX x hx, ← eX y hy]; exact hg x y hx hy) (fun x _ v => hX.orth x v)
    obtain ⟨C, hC, h⟩ := rate_of pieces2.cube sub2 s1 inside1 reg hd' es hes κ
    refine ⟨C, integrable_of sub2 s1 reg hd', fun order n hn => ⟨fun _ => ?_, fun h => absurd rfl h, fun _ _ h => absurd rfl h, fun _ _ h => absurd rfl h⟩⟩
    rw [eq2]
    exact h order n hn
  · have sep : Separated t geo a b := fun y z hy hz e => (C44_contact near corner P M hP hc geo hw hemb t ht M le_rfl a b ha hb y z hy hz e).2.1 hab hn
    have hsm' : SmoothPatches P geo := by
      intro q hq
      obtain ⟨g, hg, eg⟩ := hsm q hq
      have hd : ∀ v : ℝ × ℝ, ContDiff ℝ ∞ fun x => fderiv ℝ g x v := fun v => (hg.fderiv_right (m := ∞) (by norm_cast)).clm_apply contDiff_const
      exact ⟨fun x => (g x, fderiv ℝ g x (1, 0), fderiv ℝ g x (0, 1)), fun x _ => (hg.prodMk ((hd _).prodMk (hd _))).contDiffAt, eg⟩
    have sp := density_smooth op hk hpos T hT near corner P M hP t ht geo hreg hsm' p a b ha hb sep i j r c
    have int : Integrable (density op T t geo p M a b i j r c) μ4 := by
      obtain ⟨G, G1, G2⟩ := sp
      have hG : SmoothCube G := fun q hq => G1 q.1 q.2 (cube_square hq).1 (cube_square hq).2
      exact (smooth_integrable hG).congr (by filter_upwards [mem_ae] with q hq using (G2 q.1 q.2 (cube_square hq).1 (cube_square hq).2).symm)
    obtain ⟨C, hC, h⟩ := Smooth.gauss_rate es hes _ sp κ
    refine ⟨C, int, fun order n hno => ⟨fun h => absurd h hab, fun _ _ => ?_, fun u v _ hv => ?_, fun u v _ hv => ?_⟩⟩
    · have := h order n hno
      have e2 := Bembel.Singular.pairQuad_tensor (gaussLegendre es order n) (density op T t geo p M a b i j r c)
      have e : gaussSquare es order n = tensorRule (gaussLegendre es order n) := by
        unfold gaussSquare gaussLegendre
        rw [(C46_select _ order n hno).2, (C46_select _ order n hno).1]
      rw [e, e2]
      rwa [integral4_eq _ int] at this
    · exact absurd ((hv.2.2 u hv.1 v hv.2.1).2 ⟨rfl, rfl⟩) (hn u hv.1 v hv.2.1)
    · have l4 : (v + 1) % 4 < 4 := Nat.mod_lt _ (by norm_num)
      exact absurd ((hv.2.2 u hv.1 _ l4).2 (Or.inl ⟨rfl, rfl⟩)) (hn u hv.1 _ l4)
  · obtain ⟨c1, c0, hg⟩ := hg.vertex a b ha hb hab u v hv
    have e0 := ((g3 a b ha hb).2.2.1 u v hab hv).2
    have reg := paired4 op hs _ _ _ _ _ _ (sheet_rot hX.sheet u) (sheet_rot hY.sheet v) (fun α x => T p M i α r (tau x.1 x.2 u))
      (fun β x => T p M j β c (tau x.1 x.2 v)) (fun α => (hT _ _ _ _ _).comp (tau_smooth u)) (fun β => (hT _ _ _ _ _).comp (tau_smooth v)) i j c1 c0
      (by rw [← eX _ (tau_square u _ z0), ← eY _ (tau_square v _ z0)]; exact e0)
      (fun x y hx hy => by rw [← eX _ (tau_square u x hx), ← eY _ (tau_square v y hy)]; exact hg x y hx hy)
    have hdr : ∀ q ∈ Cube, rotated u v (density op T t geo p M a b i j r c) q = _ := fun q hq => hd _ (rotated_cube u v q hq)
    obtain ⟨C, hC, h⟩ := rate_of pieces4.cube sub4 s1 inside1 reg hdr es hes κ
    obtain ⟨int, ie⟩ := unrotate _ u v (integrable_of sub4 s1 reg hdr)
    refine ⟨C, int, fun order n hno => ⟨fun h => absurd h hab, fun _ hn => ?_, fun u' v' _ hv' => ?_, fun u' v' _ hv' => ?_⟩⟩
    · exact absurd ((hv.2.2 u hv.1 v hv.2.1).2 ⟨rfl, rfl⟩) (hn u hv.1 v hv.2.1)
    · obtain ⟨rfl, rfl⟩ := Smooth.vertex_case hv u' v' hv'.1 hv'.2.1 ((hv'.2.2 _ hv'.1 _ hv'.2.1).2 ⟨rfl, rfl⟩)
      rw [eq4, ← ie]
      exact h order n hno
    · have l4 : ∀ k, (k + 1) % 4 < 4 := fun k => Nat.mod_lt _ (by norm_num)
      have a1 := Smooth.vertex_case hv _ _ hv'.1 (l4 v') ((hv'.2.2 _ hv'.1 _ (l4 _)).2 (Or.inl ⟨rfl, rfl⟩))
      have a2 := Smooth.vertex_case hv _ _ (l4 u') hv'.2.1 ((hv'.2.2 _ (l4 _) _ hv'.2.1).2 (Or.inr ⟨rfl, rfl⟩))
      omega
  · obtain ⟨c1, c0, hg⟩ := hg.edge a b ha hb hab u v hv
    have e0 := ((g3 a b ha hb).2.2.2 u v hab hv).2
    have reg := paired3 op hs _ _ _ _ _ _ (sheet_rot hX.sheet u) (sheet_rot hY.sheet v) (fun α x => T p M i α r (tau x.1 x.2 u))
      (fun β x => T p M j β c (tau x.1 x.2 v)) (fun α => (hT _ _ _ _ _).comp (tau_smooth u)) (fun β => (hT _ _ _ _ _).comp (tau_smooth v)) i j c1 c0
      (fun x x0 x1 => by
        rw [← eX _ (tau_square u (x, 0) ⟨x0, x1, le_rfl, zero_le_one⟩), ← eY _ (tau_square v (1 - x, 0) ⟨by simp only; linarith, by simp only; linarith, le_rfl, zero_le_one⟩)]
        exact e0 x x0 x1)
      (fun x y hx hy => by rw [← eX _ (tau_square u x hx), ← eY _ (tau_square v y hy)]; exact hg x y hx hy)
    have hdr : ∀ q ∈ Cube, rotated u v (density op T t geo p M a b i j r c) q = _ := fun q hq => hd _ (rotated_cube u v q hq)
    obtain ⟨C, hC, h⟩ := rate_of pieces3.cube sub3 s2 inside2 reg hdr es hes κ
    obtain ⟨int, ie⟩ := unrotate _ u v (integrable_of sub3 s2 reg hdr)
    have l4 : ∀ k, (k + 1) % 4 < 4 := fun k => Nat.mod_lt _ (by norm_num)
    refine ⟨C, int, fun order n hno => ⟨fun h => absurd h hab, fun _ hn => ?_, fun u' v' _ hv' => ?_, fun u' v' _ hv' => ?_⟩⟩
    · exact absurd ((hv.2.2 u hv.1 _ (l4 v)).2 (Or.inl ⟨rfl, rfl⟩)) (hn u hv.1 _ (l4 v))
    · have a1 := Smooth.vertex_case hv' _ _ hv.1 (l4 v) ((hv.2.2 _ hv.1 _ (l4 _)).2 (Or.inl ⟨rfl, rfl⟩))
      have a2 := Smooth.vertex_case hv' _ _ (l4 u) hv.2.1 ((hv.2.2 _ (l4 _) _ hv.2.1).2 (Or.inr ⟨rfl, rfl⟩))
      have := hv.1
      omega
    · have b1 := Smooth.edge_case hv' _ _ hv.1 (l4 v) ((hv.2.2 _ hv.1 _ (l4 _)).2 (Or.inl ⟨rfl, rfl⟩))
      have b2 := Smooth.edge_case hv' _ _ (l4 u) hv.2.1 ((hv.2.2 _ (l4 _) _ hv.2.1).2 (Or.inr ⟨rfl, rfl⟩))
      have k1 := hv.1
      have k2 := hv.2.1
      have k3 := hv'.1
      have k4 := hv'.2.1
      have f1 : u' = u := by omega
      have f2 : v' = v := by omega
      subst f1 f2
      rw [eq3, ← ie]
      exact h order n hno

end
end Singular
end Bembel.Props
