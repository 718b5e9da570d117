import Verif.Props.Singular
/-! # Lower bounds for distances from the absence of cusps -/

namespace Bembel.Props
open Finset Mesh H2 Spec Util Duffy SuperSpace MeasureTheory
open Filter Topology Asymptotics
open scoped ContDiff

namespace Singular
open Bembel.Singular

/-- The rotations are affine. -/
theorem tau_deriv (r : Nat) (x u : ℝ × ℝ) : fderiv ℝ (fun x : ℝ × ℝ => tau x.1 x.2 r) x u = tau (x.1 + u.1) (x.2 + u.2) r - tau x.1 x.2 r := by
  have f1 : HasFDerivAt (fun x : ℝ × ℝ => x.1) (ContinuousLinearMap.fst ℝ ℝ ℝ) x := hasFDerivAt_fst
  have f2 : HasFDerivAt (fun x : ℝ × ℝ => x.2) (ContinuousLinearMap.snd ℝ ℝ ℝ) x := hasFDerivAt_snd
  match r with
  | 0 =>
    have : fderiv ℝ (fun x : ℝ × ℝ => tau x.1 x.2 0) x = _ := (f1.prodMk f2).fderiv
    rw [this]; refine Prod.ext ?_ ?_ <;> simp [tau]
  | 1 =>
    have : fderiv ℝ (fun x : ℝ × ℝ => tau x.1 x.2 1) x = _ := ((f2.const_sub 1).prodMk f1).fderiv
    rw [this]; simp [tau]
  | 2 =>
    have : fderiv ℝ (fun x : ℝ × ℝ => tau x.1 x.2 2) x = _ := ((f1.const_sub 1).prodMk (f2.const_sub 1)).fderiv
    rw [this]; simp [tau]
  | 3 =>
    have : fderiv ℝ (fun x : ℝ × ℝ => tau x.1 x.2 3) x = _ := (f2.prodMk (f1.const_sub 1)).fderiv
    rw [this]; simp [tau]
  | n + 4 =>
    have : fderiv ℝ (fun x : ℝ × ℝ => tau x.1 x.2 (n + 4)) x = _ := (f1.prodMk f2).fderiv
    rw [this]; refine Prod.ext ?_ ?_ <;> simp [tau]

theorem rot_deriv (X : ℝ × ℝ → V3) (hX : ContDiff ℝ ∞ X) (r : Nat) (x u : ℝ × ℝ) :
    fderiv ℝ (fun x : ℝ × ℝ => X (tau x.1 x.2 r)) x u = fderiv ℝ X (tau x.1 x.2 r) (tau (x + u).1 (x + u).2 r - tau x.1 x.2 r) := by
  have h1 : DifferentiableAt ℝ X (tau x.1 x.2 r) := hX.contDiffAt.differentiableAt (by simp)
  have h2 : DifferentiableAt ℝ (fun x : ℝ × ℝ => tau x.1 x.2 r) x := (tau_smooth r).contDiffAt.differentiableAt (by simp)
  have : fderiv ℝ (fun x : ℝ × ℝ => X (tau x.1 x.2 r)) x = _ := fderiv_comp (g := X) (f := fun x : ℝ × ℝ => tau x.1 x.2 r) x h1 h2
  rw [this, ContinuousLinearMap.comp_apply, tau_deriv]
  rfl

section
variable (near : V3 → V3 → Bool) (corner : Nat → Nat → V3) (P M : Nat) (hP : 0 < P) (hc : ConformingPatches near corner P)
    (geo : Nat → ℝ × ℝ → V3 × V3 × V3) (hreg : RegularPatches P geo) (hsm : SmoothSurface P geo)
    (hw : Watertight corner P fun p s => (geo p s).1) (hemb : Embedded corner P geo) (hcusp : NoCusps P geo)
    (t : Mesh.Tree ℝ) (ht : initElementTree near corner P M = some t)
include hP hc hreg hw hemb ht hcusp

/-- No cusps of elements. -/
theorem element_cusp (a b : Addr) (ha : IsNode P M a) (hb : IsNode P M b) (X U V Y U' V' : ℝ × ℝ → V3) (hX : ElementSheet t geo a X U V)
    (hY : ElementSheet t geo b Y U' V') (x y u v : ℝ × ℝ) (hx : ClosedSquare x) (hy : ClosedSquare y) (hu : ClosedSquare (x + u))
    (hv : ClosedSquare (y + v)) (h : X x = Y y) (hd : fderiv ℝ X x u = fderiv ℝ Y y v) : X (x + u) = Y (y + v) := by
  have q1 := node_square near corner P M hP t ht M le_rfl a ha
  have q2 := node_square near corner P M hP t ht M le_rfl b hb
  rw [hX.deriv, hY.deriv] at hd
  have e1 := hX.eq x hx 0
  have e2 := hY.eq y hy 0
  have e3 := hX.eq _ hu 0
  have e4 := hY.eq _ hv 0
  simp only [map2surface, SurfPt.mk.injEq, true_and] at e1 e2 e3 e4
  rw [← e3.1, ← e4.1]
  rw [← e1.1, ← e2.1] at h
  rw [← e1.2.1, ← e1.2.2, ← e2.2.1, ← e2.2.2] at hd
  have a1 : ∀ (a : Addr) (x u : ℝ × ℝ), ((t.llc a).1 + getH t a * (x + u).1, (t.llc a).2 + getH t a * (x + u).2) =
      ((t.llc a).1 + getH t a * x.1, (t.llc a).2 + getH t a * x.2) + (getH t a * u.1, getH t a * u.2) := fun a x u => by
    refine Prod.ext ?_ ?_ <;> simp <;> ring
  obtain ⟨p1, s1⟩ := q1 x hx
  obtain ⟨p2, s2⟩ := q2 y hy
  have s3 := (q1 _ hu).2
  have s4 := (q2 _ hv).2
  rw [a1] at s3 s4 ⊢
  rw [a1]
  by_cases hpq : t.patch a = t.patch b
  · obtain ⟨t', k1, k2, -⟩ := tree_facts (K := ℝ) near corner P M hP
    obtain rfl : t = t' := Option.some.inj (ht.symm.trans k1)
    have root : IsNode P 0 (t.patch a, []) := ⟨p1, rfl, by simp⟩
    have rp : ∀ z, (map2surface t geo (t.patch a, []) z 1).f = (geo (t.patch a) z).1 := fun z => by
      obtain ⟨-, v2, v3, v4⟩ := k2 0 (Nat.zero_le _) _ (mem_leaves.2 root)
      simp [map2surface, getH, v2, v3, v4, posX, posY]
    rw [← hpq] at h hd ⊢
    have := (C44_contact near corner P M hP hc geo hw hemb t ht 0 (Nat.zero_le _) _ _ root root _ _ s1 s2 (by rw [rp, rp]; exact h)).1 rfl
    rw [← this] at hd ⊢
    have z := cross_of_dependent _ _ (getH t a * u.1 - getH t b * v.1) (getH t a * u.2 - getH t b * v.2)
      (by rw [sub_smul, sub_smul, ← sub_eq_zero.2 hd]; abel) (hreg _ p1 _ s1)
    rw [sub_eq_zero.1 z.1, sub_eq_zero.1 z.2]
  · exact hcusp _ p1 _ p2 hpq _ _ _ _ s1 s2 s3 s4 h hd

/-- The same, with rotated elements. -/
theorem rotated_cusp (a b : Addr) (ha : IsNode P M a) (hb : IsNode P M b) (X U V Y U' V' : ℝ × ℝ → V3) (hX : ElementSheet t geo a X U V)
    (hY : ElementSheet t geo b Y U' V') (r s : Nat) (x y u v : ℝ × ℝ) (hx : ClosedSquare x) (hy : ClosedSquare y) (hu : ClosedSquare (x + u))
    (hv : ClosedSquare (y + v)) (h : X (tau x.1 x.2 r) = Y (tau y.1 y.2 s))
    (hd : fderiv ℝ (fun x : ℝ × ℝ => X (tau x.1 x.2 r)) x u = fderiv ℝ (fun x : ℝ × ℝ => Y (tau x.1 x.2 s)) y v) :
    X (tau (x + u).1 (x + u).2 r) = Y (tau (y + v).1 (y + v).2 s) := by
  rw [rot_deriv X hX.sheet.point, rot_deriv Y hY.sheet.point] at hd
  have := element_cusp near corner P M hP hc geo hreg hw hemb hcusp t ht a b ha hb X U V Y U' V' hX hY _ _ _ _ (tau_square r x hx) (tau_square s y hy)
    (by rw [add_sub_cancel]; exact tau_square r _ hu) (by rw [add_sub_cancel]; exact tau_square s _ hv) h hd
  rwa [add_sub_cancel, add_sub_cancel] at this

include hsm
/-- Elements with a common vertex. -/
theorem gaps_vertex (a b : Addr) (ha : IsNode P M a) (hb : IsNode P M b) (hab : a ≠ b) (r s : Nat) (hs : ShareVertex (t.vert a) (t.vert b) r s) :
    ∃ c > 0, ∀ x y, ClosedSquare x → ClosedSquare y → c * (‖x‖ + ‖y‖) ≤ ‖pt t geo a (tau x.1 x.2 r) - pt t geo b (tau y.1 y.2 s)‖ := by
  obtain ⟨X, U, V, hX⟩ := element_sheet near corner P M hP t ht geo hreg hsm M le_rfl a ha
  obtain ⟨Y, U', V', hY⟩ := element_sheet near corner P M hP t ht geo hreg hsm M le_rfl b hb
  have eX : ∀ x, ClosedSquare x → pt t geo a (tau x.1 x.2 r) = X (tau x.1 x.2 r) := fun x hx => by unfold pt; rw [hX.eq _ (tau_square r x hx)]
  have eY : ∀ x, ClosedSquare x → pt t geo b (tau x.1 x.2 s) = Y (tau x.1 x.2 s) := fun x hx => by unfold pt; rw [hY.eq _ (tau_square s x hx)]
  have contact : ∀ x y, ClosedSquare x → ClosedSquare y → X (tau x.1 x.2 r) = Y (tau y.1 y.2 s) → x = 0 ∧ y = 0 := fun x y hx hy h => by
    rw [← eX x hx, ← eY y hy] at h
    obtain ⟨e1, e2⟩ := (C44_contact near corner P M hP hc geo hw hemb t ht M le_rfl a b ha hb _ _ (tau_square r x hx) (tau_square s y hy) h).2.2.1 r s hab hs
    have n1 := tau_norm r x (0, 0)
    have n2 := tau_norm s y (0, 0)
    simp only [e1, e2, sub_self, norm_zero] at n1 n2
    exact ⟨sub_eq_zero.1 (norm_eq_zero.1 n1.symm), sub_eq_zero.1 (norm_eq_zero.1 n2.symm)⟩
  have z0 : ClosedSquare (0 : ℝ × ℝ) := by norm_num [ClosedSquare]
  obtain ⟨t', g1, B, -, g3⟩ := C44_compare near corner P M hP hc (fun p s => (geo p s).1) hw (fun _ => 0) (fun _ => ⟨0, 0⟩)
  obtain rfl : t = t' := Option.some.inj (ht.symm.trans g1)
  have e0 : X (tau (0 : ℝ × ℝ).1 (0 : ℝ × ℝ).2 r) = Y (tau (0 : ℝ × ℝ).1 (0 : ℝ × ℝ).2 s) := by
    rw [← eX 0 z0, ← eY 0 z0]; exact ((g3 a b ha hb).2.2.1 r s hab hs).2
  have sX : ContDiff ℝ ∞ fun x : ℝ × ℝ => X (tau x.1 x.2 r) := hX.sheet.point.comp (tau_smooth r)
  have sY : ContDiff ℝ ∞ fun x : ℝ × ℝ => Y (tau x.1 x.2 s) := hY.sheet.point.comp (tau_smooth s)
  have dX := (sX.contDiffAt (x := 0)).differentiableAt (by simp) |>.hasFDerivAt
  have dY := (sY.contDiffAt (x := 0)).differentiableAt (by simp) |>.hasFDerivAt
  have f1 : HasFDerivAt (fun x : PointPair => x.1) (ContinuousLinearMap.fst ℝ (ℝ × ℝ) (ℝ × ℝ)) 0 := hasFDerivAt_fst
  have f2 : HasFDerivAt (fun x : PointPair => x.2) (ContinuousLinearMap.snd ℝ (ℝ × ℝ) (ℝ × ℝ)) 0 := hasFDerivAt_snd
  let C : Set PointPair := {v | 0 ≤ v.1.1 ∧ 0 ≤ v.1.2 ∧ 0 ≤ v.2.1 ∧ 0 ≤ v.2.2}
  have hC : IsClosed C := by
    refine (isClosed_le continuous_const (continuous_fst.comp continuous_fst)).inter ((isClosed_le continuous_const (continuous_snd.comp continuous_fst)).inter
      ((isClosed_le continuous_const (continuous_fst.comp continuous_snd)).inter (isClosed_le continuous_const (continuous_snd.comp continuous_snd))))
  let T : PointPair →L[ℝ] V3 := (fderiv ℝ (fun x : ℝ × ℝ => X (tau x.1 x.2 r)) 0).comp (ContinuousLinearMap.fst ℝ (ℝ × ℝ) (ℝ × ℝ)) -
    (fderiv ℝ (fun x : ℝ × ℝ => Y (tau x.1 x.2 s)) 0).comp (ContinuousLinearMap.snd ℝ (ℝ × ℝ) (ℝ × ℝ))
  have hd : HasFDerivAt (fun p : PointPair => X (tau p.1.1 p.1.2 r) - Y (tau p.2.1 p.2.2 s)) T 0 :=
    (HasFDerivAt.comp (g := fun x : ℝ × ℝ => X (tau x.1 x.2 r)) (0 : PointPair) dX f1).sub
      (HasFDerivAt.comp (g := fun x : ℝ × ℝ => Y (tau x.1 x.2 s)) (0 : PointPair) dY f2)
  obtain ⟨c, c0, h⟩ := compact_gap (E := PointPair) Cube isCompact_Icc (fun p => p) (fun p => X (tau p.1.1 p.1.2 r) - Y (tau p.2.1 p.2.2 s)) continuous_id
    ((sX.continuous.comp continuous_fst).sub (sY.continuous.comp continuous_snd))
    (fun p hp h => by
      obtain ⟨q1, q2⟩ := cube_square hp
      obtain ⟨k1, k2⟩ := contact _ _ q1 q2 (sub_eq_zero.1 h)
      exact Prod.ext k1 k2) fun p hp hz => by
      have hz : p = 0 := hz
      subst hz
      refine local_gap Cube _ _ 0 C T (fun q hq => ?_) (cone_gap _ hC (fun v hv m hm => ?_) T fun v hv hT => ?_) ?_
      · obtain ⟨q1, q2⟩ := cube_square hq
        exact ⟨q1.1, q1.2.2.1, q2.1, q2.2.2.1⟩
      · exact ⟨mul_nonneg hm hv.1, mul_nonneg hm hv.2.1, mul_nonneg hm hv.2.2.1, mul_nonneg hm hv.2.2.2⟩
      · have hm : 0 < 1 / (1 + ‖v‖) := by positivity
        have le : ∀ x : ℝ, 0 ≤ x → x ≤ ‖v‖ → 0 ≤ 1 / (1 + ‖v‖) * x ∧ 1 / (1 + ‖v‖) * x ≤ 1 := fun x h0 h1 => by
          refine ⟨mul_nonneg hm.le h0, ?_⟩
          rw [div_mul_eq_mul_div, div_le_one (by positivity)]
          linarith
        have n1 : ‖v.1‖ ≤ ‖v‖ := norm_fst_le v
        have n2 : ‖v.2‖ ≤ ‖v‖ := norm_snd_le v
        have m1 := (le_abs_self v.1.1).trans ((norm_fst_le v.1).trans n1)
        have m2 := (le_abs_self v.1.2).trans ((norm_snd_le v.1).trans n1)
        have m3 := (le_abs_self v.2.1).trans ((norm_fst_le v.2).trans n2)
        have m4 := (le_abs_self v.2.2).trans ((norm_snd_le v.2).trans n2)
        generalize 1 / (1 + ‖v‖) = m at hm le
        have u1 := le _ hv.1 m1
        have u2 := le _ hv.2.1 m2
        have u3 := le _ hv.2.2.1 m3
        have u4 := le _ hv.2.2.2 m4
        have c1 : ClosedSquare (m • v.1) := ⟨u1.1, u1.2, u2.1, u2.2⟩
        have c2 : ClosedSquare (m • v.2) := ⟨u3.1, u3.2, u4.1, u4.2⟩
        have hT : fderiv ℝ (fun x : ℝ × ℝ => X (tau x.1 x.2 r)) 0 v.1 = fderiv ℝ (fun x : ℝ × ℝ => Y (tau x.1 x.2 s)) 0 v.2 := sub_eq_zero.1 hT
        have := rotated_cusp near corner P M hP hc geo hreg hw hemb hcusp t ht a b ha hb X U V Y U' V' hX hY r s 0 0 (m • v.1) (m • v.2) z0 z0
          (by rw [zero_add]; exact c1) (by rw [zero_add]; exact c2) e0 (by rw [map_smul, map_smul, hT])
        rw [zero_add, zero_add] at this
        obtain ⟨k1, k2⟩ := contact _ _ c1 c2 this
        exact Prod.ext ((smul_eq_zero.1 k1).resolve_left hm.ne') ((smul_eq_zero.1 k2).resolve_left hm.ne')
      · have := hd.isLittleO
        simp only [Prod.fst_zero, Prod.snd_zero, sub_zero] at this e0
        rw [e0] at this
        simp only [sub_self, sub_zero] at this
        exact this.mono nhdsWithin_le_nhds
  refine ⟨c / 2, by positivity, fun x y hx hy => ?_⟩
  rw [eX x hx, eY y hy]
  have := h (x, y) (square_cube hx hy)
  refine le_trans ?_ this
  have k1 : ‖x‖ ≤ ‖(x, y)‖ := norm_fst_le (x, y)
  have k2 : ‖y‖ ≤ ‖(x, y)‖ := norm_snd_le (x, y)
  calc c / 2 * (‖x‖ + ‖y‖) ≤ c / 2 * (2 * ‖(x, y)‖) := mul_le_mul_of_nonneg_left (by linarith) (by positivity)
    _ = _ := by ring

omit hP hc hreg hsm hw hemb ht hcusp in
theorem scale_unit (v : ℝ) (N : ℝ) (hN : |v| ≤ N) : |1 / (1 + N) * v| ≤ 1 := by
  have h0 := abs_nonneg v
  have : 0 < 1 + N := by linarith
  rw [abs_mul, abs_of_pos (by positivity), div_mul_eq_mul_div, div_le_one this]
  linarith

/-- Elements with a common edge. -/
theorem gaps_edge (a b : Addr) (ha : IsNode P M a) (hb : IsNode P M b) (hab : a ≠ b) (r s : Nat) (hs : ShareEdge (t.vert a) (t.vert b) r s) :
    ∃ c > 0, ∀ x y, ClosedSquare x → ClosedSquare y →
      c * (|x.1 + y.1 - 1| + x.2 + y.2) ≤ ‖pt t geo a (tau x.1 x.2 r) - pt t geo b (tau y.1 y.2 s)‖ := by
  obtain ⟨X, U, V, hX⟩ := element_sheet near corner P M hP t ht geo hreg hsm M le_rfl a ha
  obtain ⟨Y, U', V', hY⟩ := element_sheet near corner P M hP t ht geo hreg hsm M le_rfl b hb
  have eX : ∀ x, ClosedSquare x → pt t geo a (tau x.1 x.2 r) = X (tau x.1 x.2 r) := fun x hx => by unfold pt; rw [hX.eq _ (tau_square r x hx)]
  have eY : ∀ x, ClosedSquare x → pt t geo b (tau x.1 x.2 s) = Y (tau x.1 x.2 s) := fun x hx => by unfold pt; rw [hY.eq _ (tau_square s x hx)]
  obtain ⟨t', g1, B, -, g3⟩ := C44_compare near corner P M hP hc (fun p s => (geo p s).1) hw (fun _ => 0) (fun _ => ⟨0, 0⟩)
  obtain rfl : t = t' := Option.some.inj (ht.symm.trans g1)
  have cusp := rotated_cusp near corner P M hP hc geo hreg hw hemb hcusp t ht a b ha hb X U V Y U' V' hX hY r s
  have sX : ContDiff ℝ ∞ fun x : ℝ × ℝ => X (tau x.1 x.2 r) := hX.sheet.point.comp (tau_smooth r)
  have sY : ContDiff ℝ ∞ fun x : ℝ × ℝ => Y (tau x.1 x.2 s) := hY.sheet.point.comp (tau_smooth s)
  have contact : ∀ x y : ℝ × ℝ, ClosedSquare x → ClosedSquare y → X (tau x.1 x.2 r) = Y (tau y.1 y.2 s) → x.1 + y.1 = 1 ∧ x.2 = 0 ∧ y.2 = 0 :=
    fun x y hx hy h => by
    rw [← eX x hx, ← eY y hy] at h
    obtain ⟨u, -, -, e1, e2⟩ := (C44_contact near corner P M hP hc geo hw hemb t ht M le_rfl a b ha hb _ _ (tau_square r x hx) (tau_square s y hy) h).2.2.2
      r s hab hs
    have n1 := tau_norm r x (u, 0)
    have n2 := tau_norm s y (1 - u, 0)
    simp only [e1, e2, sub_self, norm_zero] at n1 n2
    have k1 := sub_eq_zero.1 (norm_eq_zero.1 n1.symm)
    have k2 := sub_eq_zero.1 (norm_eq_zero.1 n2.symm)
    rw [k1, k2]
    exact ⟨by simp, rfl, rfl⟩
  have e0 : ∀ x : ℝ, 0 ≤ x → x ≤ 1 → X (tau x 0 r) = Y (tau (1 - x) 0 s) := fun x x0 x1 => by
    have k1 := eX (x, 0) ⟨x0, x1, le_rfl, zero_le_one⟩
    have k2 := eY (1 - x, 0) ⟨by simp only; linarith, by simp only; linarith, le_rfl, zero_le_one⟩
    simp only at k1 k2
    rw [← k1, ← k2]; exact ((g3 a b ha hb).2.2.2 r s hab hs).2 x x0 x1
  generalize hXr : (fun x : ℝ × ℝ => X (tau x.1 x.2 r)) = Xr at sX cusp
  generalize hYr : (fun x : ℝ × ℝ => Y (tau x.1 x.2 s)) = Yr at sY cusp
  have hXr' : ∀ x : ℝ × ℝ, X (tau x.1 x.2 r) = Xr x := fun x => congrFun hXr x
  have hYr' : ∀ x : ℝ × ℝ, Y (tau x.1 x.2 s) = Yr x := fun x => congrFun hYr x
  have e0 : ∀ x : ℝ, 0 ≤ x → x ≤ 1 → Xr (x, 0) = Yr (1 - x, 0) := fun x x0 x1 => by rw [← hXr', ← hYr']; exact e0 x x0 x1
  simp only [hXr', hYr'] at contact cusp eX eY
  have along : ∀ x : ℝ, 0 ≤ x → x ≤ 1 → fderiv ℝ Xr (x, 0) (1, 0) = -fderiv ℝ Yr (1 - x, 0) (1, 0) := fun x x0 x1 => by
    have l1 : HasDerivAt (fun x : ℝ => ((x, 0) : ℝ × ℝ)) (1, 0) x := (hasDerivAt_id x).prodMk (hasDerivAt_const x 0)
    have l2 : HasDerivAt (fun x : ℝ => ((1 - x, 0) : ℝ × ℝ)) (-1, 0) x := ((hasDerivAt_id x).const_sub 1).prodMk (hasDerivAt_const x 0)
    have d1 := ((sX.contDiffAt (x := (x, 0))).differentiableAt (by simp)).hasFDerivAt.comp_hasDerivAt x l1
    have d2 := ((sY.contDiffAt (x := (1 - x, 0))).differentiableAt (by simp)).hasFDerivAt.comp_hasDerivAt x l2
    have un : UniqueDiffWithinAt ℝ (Set.Icc (0 : ℝ) 1) x := uniqueDiffOn_Icc zero_lt_one x ⟨x0, x1⟩
    have := un.eq_deriv _ d1.hasDerivWithinAt (d2.hasDerivWithinAt.congr (fun y hy => e0 y hy.1 hy.2) (e0 x x0 x1))
    rw [this, ← map_neg]
    simp
  let lam : PointPair → ℝ × ℝ × ℝ := fun q => (q.1.1 + q.2.1 - 1, q.1.2, q.2.2)
  let C : Set (ℝ × ℝ × ℝ) := {v | 0 ≤ v.2.1 ∧ 0 ≤ v.2.2}
  have hC : IsClosed C := (isClosed_le continuous_const (continuous_fst.comp continuous_snd)).inter
    (isClosed_le continuous_const (continuous_snd.comp continuous_snd))
  obtain ⟨c, c0, h⟩ := compact_gap (E := PointPair) Cube isCompact_Icc lam (fun p => Xr p.1 - Yr p.2) (by unfold lam; fun_prop)
    ((sX.continuous.comp continuous_fst).sub (sY.continuous.comp continuous_snd))
    (fun p hp h => by
      obtain ⟨q1, q2⟩ := cube_square hp
      obtain ⟨k1, k2, k3⟩ := contact _ _ q1 q2 (sub_eq_zero.1 h)
      simp only [lam, k1, k2, k3, sub_self]; rfl) fun p hp hz => by
      obtain ⟨q1, q2⟩ := cube_square hp
      obtain ⟨z1, z2⟩ := Prod.ext_iff.1 hz
      obtain ⟨z2', z3⟩ := Prod.ext_iff.1 z2
      replace z2 := z2'
      clear z2'
      simp only [lam, Prod.fst_zero, Prod.snd_zero] at z1 z2 z3
      obtain ⟨⟨x0, p2⟩, ⟨y0, p4⟩⟩ := p
      simp only at z1 z2 z3 q1 q2
      obtain rfl : y0 = 1 - x0 := by linarith
      subst z2 z3
      have x00 : 0 ≤ x0 := q1.1
      have x01 : x0 ≤ 1 := q1.2.1
      let e2 : (ℝ × ℝ × ℝ) →L[ℝ] ℝ × ℝ := (0 : (ℝ × ℝ × ℝ) →L[ℝ] ℝ).prod ((ContinuousLinearMap.fst ℝ ℝ ℝ).comp (ContinuousLinearMap.snd ℝ ℝ (ℝ × ℝ)))
      let e13 : (ℝ × ℝ × ℝ) →L[ℝ] ℝ × ℝ := (ContinuousLinearMap.fst ℝ ℝ (ℝ × ℝ)).prod ((ContinuousLinearMap.snd ℝ ℝ ℝ).comp (ContinuousLinearMap.snd ℝ ℝ (ℝ × ℝ)))
      let T : (ℝ × ℝ × ℝ) →L[ℝ] V3 := (fderiv ℝ Xr (x0, 0)).comp e2 - (fderiv ℝ Yr (1 - x0, 0)).comp e13
      have hTv : ∀ v, T v = fderiv ℝ Xr (x0, 0) (0, v.2.1) - fderiv ℝ Yr (1 - x0, 0) (v.1, v.2.2) := fun v => rfl
      refine local_gap Cube lam _ ((x0, 0), (1 - x0, 0)) C T (fun q hq => ?_) (cone_gap _ hC (fun v hv m hm => ?_) T fun v hv hT => ?_) ?_
      · obtain ⟨q1, q2⟩ := cube_square hq
        exact ⟨q1.2.2.1, q2.2.2.1⟩
      · exact ⟨mul_nonneg hm hv.1, mul_nonneg hm hv.2⟩
      · have hm : 0 < 1 / (1 + ‖v‖) := by positivity
        have n2 : ‖v.2‖ ≤ ‖v‖ := norm_snd_le v
        have m1 := scale_unit v.1 _ (norm_fst_le v)
        have m2 := (le_abs_self _).trans (scale_unit v.2.1 _ ((norm_fst_le v.2).trans n2))
        have m3 := (le_abs_self _).trans (scale_unit v.2.2 _ ((norm_snd_le v.2).trans n2))
        generalize 1 / (1 + ‖v‖) = m at hm m1 m2 m3
        have p2 := mul_nonneg hm.le hv.1
        have p3 := mul_nonneg hm.le hv.2
        rw [hTv, sub_eq_zero] at hT
        have key : ∀ α : ℝ, fderiv ℝ Xr (x0, 0) (α, m * v.2.1) = fderiv ℝ Yr (1 - x0, 0) (m * v.1 - α, m * v.2.2) := fun α => by
          have a1 : ((α, m * v.2.1) : ℝ × ℝ) = m • (0, v.2.1) + α • (1, 0) := by simp
          have a2 : ((m * v.1 - α, m * v.2.2) : ℝ × ℝ) = m • (v.1, v.2.2) - α • (1, 0) := by simp
          rw [a1, a2, map_add, map_sub, map_smul, map_smul, map_smul, map_smul, hT, along x0 x00 x01, smul_neg]
          abel
        obtain ⟨b1, b2⟩ := abs_le.1 m1
        have res : m * v.1 = 0 ∧ m * v.2.1 = 0 ∧ m * v.2.2 = 0 := by
          have e00 := e0 x0 x00 x01
          rcases le_total 0 (m * v.1) with h0 | h0
          · have := cusp (x0, 0) (1 - x0, 0) (m * v.1 - x0, m * v.2.1) (m * v.1 - (m * v.1 - x0), m * v.2.2) q1 q2
              (by refine ⟨?_, ?_, ?_, ?_⟩ <;> simp <;> linarith) (by refine ⟨?_, ?_, ?_, ?_⟩ <;> simp <;> linarith) e00 (key _)
            obtain ⟨w1, w2, w3⟩ := contact _ _ (by refine ⟨?_, ?_, ?_, ?_⟩ <;> simp <;> linarith) (by refine ⟨?_, ?_, ?_, ?_⟩ <;> simp <;> linarith) this
            simp only [Prod.fst_add, Prod.snd_add] at w1 w2 w3
            exact ⟨by linarith, by linarith, by linarith⟩
          · have := cusp (x0, 0) (1 - x0, 0) (-x0, m * v.2.1) (m * v.1 - -x0, m * v.2.2) q1 q2
              (by refine ⟨?_, ?_, ?_, ?_⟩ <;> simp <;> linarith) (by refine ⟨?_, ?_, ?_, ?_⟩ <;> simp <;> linarith) e00 (key _)
            obtain ⟨w1, w2, w3⟩ := contact _ _ (by refine ⟨?_, ?_, ?_, ?_⟩ <;> simp <;> linarith) (by refine ⟨?_, ?_, ?_, ?_⟩ <;> simp <;> linarith) this
            simp only [Prod.fst_add, Prod.snd_add] at w1 w2 w3
            exact ⟨by linarith, by linarith, by linarith⟩
        exact Prod.ext ((mul_eq_zero.1 res.1).resolve_left hm.ne') (Prod.ext ((mul_eq_zero.1 res.2.1).resolve_left hm.ne') ((mul_eq_zero.1 res.2.2).resolve_left hm.ne'))
      · have s1 := ((sX.contDiffAt (x := (x0, 0))).hasStrictFDerivAt (by norm_num)).isLittleO
        have s2 := ((sY.contDiffAt (x := (1 - x0, 0))).hasStrictFDerivAt (by norm_num)).isLittleO
        have t1 : Tendsto (fun q : PointPair => (q.1, ((q.1.1, 0) : ℝ × ℝ))) (𝓝 ((x0, 0), (1 - x0, 0))) (𝓝 ((x0, 0), (x0, 0))) :=
          (by fun_prop : Continuous fun q : PointPair => (q.1, ((q.1.1, 0) : ℝ × ℝ))).tendsto' _ _ rfl
        have t2 : Tendsto (fun q : PointPair => (q.2, ((1 - q.1.1, 0) : ℝ × ℝ))) (𝓝 ((x0, 0), (1 - x0, 0))) (𝓝 ((1 - x0, 0), (1 - x0, 0))) :=
          (by fun_prop : Continuous fun q : PointPair => (q.2, ((1 - q.1.1, 0) : ℝ × ℝ))).tendsto' _ _ rfl
        have o1 := (s1.comp_tendsto t1).mono (nhdsWithin_le_nhds (s := Cube))
        have o2 := (s2.comp_tendsto t2).mono (nhdsWithin_le_nhds (s := Cube))
        have b1 : (fun q : PointPair => q.1 - ((q.1.1, 0) : ℝ × ℝ)) =O[𝓝[Cube] ((x0, 0), (1 - x0, 0))] lam := by
          refine IsBigO.of_bound 1 (Eventually.of_forall fun q => ?_)
          rw [one_mul]
          have e : q.1 - ((q.1.1, 0) : ℝ × ℝ) = (0, q.1.2) := by refine Prod.ext ?_ ?_ <;> simp
          rw [e]
          have k1 : ‖((0, q.1.2) : ℝ × ℝ)‖ = ‖q.1.2‖ := by simp [Prod.norm_def]
          rw [k1]
          exact (norm_fst_le (lam q).2).trans (norm_snd_le (lam q))
        have b2 : (fun q : PointPair => q.2 - ((1 - q.1.1, 0) : ℝ × ℝ)) =O[𝓝[Cube] ((x0, 0), (1 - x0, 0))] lam := by
          refine IsBigO.of_bound 1 (Eventually.of_forall fun q => ?_)
          rw [one_mul]
          have e : q.2 - ((1 - q.1.1, 0) : ℝ × ℝ) = (q.1.1 + q.2.1 - 1, q.2.2) := by refine Prod.ext ?_ ?_ <;> simp; ring
          rw [e, Prod.norm_def]
          exact max_le (norm_fst_le (lam q)) ((norm_snd_le (lam q).2).trans (norm_snd_le (lam q)))
        have o3 := (o1.trans_isBigO b1).sub (o2.trans_isBigO b2)
        refine o3.congr' ?_ EventuallyEq.rfl
        filter_upwards [self_mem_nhdsWithin] with q hq
        obtain ⟨q1, q2⟩ := cube_square hq
        have e := e0 q.1.1 q1.1 q1.2.1
        simp only [Function.comp_apply]
        rw [hTv, e]
        have e1 : q.1 - ((q.1.1, 0) : ℝ × ℝ) = (0, q.1.2) := by refine Prod.ext ?_ ?_ <;> simp
        have e2 : q.2 - ((1 - q.1.1, 0) : ℝ × ℝ) = (q.1.1 + q.2.1 - 1, q.2.2) := by refine Prod.ext ?_ ?_ <;> simp; ring
        rw [e1, e2]
        abel
  refine ⟨c / 3, by positivity, fun x y hx hy => ?_⟩
  rw [eX x hx, eY y hy]
  have := h (x, y) (square_cube hx hy)
  refine le_trans ?_ this
  have k1 := norm_fst_le (lam (x, y))
  have k2 := (norm_fst_le (lam (x, y)).2).trans (norm_snd_le (lam (x, y)))
  have k3 := (norm_snd_le (lam (x, y)).2).trans (norm_snd_le (lam (x, y)))
  have k1' : |x.1 + y.1 - 1| ≤ ‖lam (x, y)‖ := k1
  have k2' : x.2 ≤ ‖lam (x, y)‖ := (le_abs_self _).trans k2
  have k3' : y.2 ≤ ‖lam (x, y)‖ := (le_abs_self _).trans k3
  calc c / 3 * (|x.1 + y.1 - 1| + x.2 + y.2) ≤ c / 3 * (3 * ‖lam (x, y)‖) := mul_le_mul_of_nonneg_left (by linarith) (by positivity)
    _ = _ := by ring

/-- The lower bounds follow from the absence of cusps. -/
theorem gaps_of_cusps : Gaps t geo P M :=
  ⟨gaps_same near corner P M hP hc geo hreg hsm hw hemb t ht,
    fun a b ha hb hab r s hs => gaps_edge near corner P M hP hc geo hreg hsm hw hemb hcusp t ht a b ha hb hab r s hs,
    fun a b ha hb hab r s hs => gaps_vertex near corner P M hP hc geo hreg hsm hw hemb hcusp t ht a b ha hb hab r s hs⟩

end
end Singular
end Bembel.Props
