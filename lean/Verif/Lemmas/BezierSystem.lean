import Verif.Lemmas.BezierSpan
/-!
# The interpolation problem of the Bezier extraction
-/

set_option linter.unusedSectionVars false

open Finset

namespace Bembel.Spl
open Bembel.Spec Bembel.Basis Bembel.Geo Bembel.Props Bembel.Projector

/-- Basis function `c` at interpolation point `x`. -/
noncomputable def coll (p x c : Nat) : ℝ := if x / (p + 1) = c / (p + 1) then bern p (c % (p + 1)) (node p (x % (p + 1))) else 0

/-- Interpolation point `x`. -/
noncomputable def pt (t : Nat → ℝ) (l : Nat → Nat) (p x : Nat) : ℝ :=
  t (l (x / (p + 1))) + node p (x % (p + 1)) * (t (l (x / (p + 1)) + 1) - t (l (x / (p + 1))))

/-- Bezier coefficient `c` of B-spline `i`. -/
noncomputable def ext (t : Nat → ℝ) (l : Nat → Nat) (p c i : Nat) : ℝ := bezier t (l (c / (p + 1))) p i (c % (p + 1))

theorem one_dim (M p : Nat) (y : Nat → ℝ) (h : ∀ x < M * (p + 1), ∑ c ∈ range (M * (p + 1)), coll p x c * y c = 0) :
    ∀ c < M * (p + 1), y c = 0 := by
  intro c hc
  have hs : c / (p + 1) < M := (Nat.div_lt_iff_lt_mul (by omega)).2 hc
  have hr : c % (p + 1) ≤ p := by have := Nat.mod_lt c (show p + 1 > 0 by omega); omega
  have := bern_unisolvent p (fun r => y (c / (p + 1) * (p + 1) + r)) (node p) (fun k hk => node_mem p k hk) (fun k _ l _ e => node_inj p k l e) (by
    intro k hk
    obtain ⟨d1, d2⟩ := divmod_pair (m := p + 1) (a := c / (p + 1)) (b := k) (by omega)
    have := h (c / (p + 1) * (p + 1) + k) (by
      calc c / (p + 1) * (p + 1) + k < (c / (p + 1) + 1) * (p + 1) := by rw [Nat.succ_mul]; omega
        _ ≤ _ := Nat.mul_le_mul_right _ hs)
    rw [H2.sum_range_mul, sum_eq_single (c / (p + 1))] at this
    · rw [← this]
      refine sum_congr rfl fun r hr => ?_
      obtain ⟨e1, e2⟩ := divmod_pair (m := p + 1) (a := c / (p + 1)) (b := r) (mem_range.1 hr)
      unfold coll
      rw [e1, e2, d1, d2, if_pos rfl]
    · intro q _ hq
      refine sum_eq_zero fun r hr => ?_
      obtain ⟨e1, e2⟩ := divmod_pair (m := p + 1) (a := q) (b := r) (mem_range.1 hr)
      unfold coll
      rw [e2, d2, if_neg (Ne.symm hq), zero_mul]
    · intro hn; exact absurd (mem_range.2 hs) hn) (c % (p + 1)) hr
  rwa [Nat.div_add_mod' c (p + 1)] at this

namespace Dir

variable {t : Nat → ℝ} {n p : Nat} {u : List ℝ} {l : Nat → Nat}

theorem span_lt (_h : Dir t n p u l) {x : Nat} (hx : x < (u.length - 1) * (p + 1)) : x / (p + 1) + 1 < u.length := by
  have : x / (p + 1) < u.length - 1 := (Nat.div_lt_iff_lt_mul (by omega)).2 hx
  generalize x / (p + 1) = a at *
  omega

theorem pt_mem (h : Dir t n p u l) {x : Nat} (hx : x < (u.length - 1) * (p + 1)) :
    t (l (x / (p + 1))) < pt t l p x ∧ pt t l p x < t (l (x / (p + 1)) + 1) := by
  have hlt := h.lt (h.span_lt hx)
  have hr : x % (p + 1) ≤ p := by have := Nat.mod_lt x (show p + 1 > 0 by omega); omega
  obtain ⟨n0, n1⟩ := node_mem p _ hr
  unfold pt
  constructor <;> nlinarith

theorem point_get (h : Dir t n p u l) {x : Nat} (hx : x < (u.length - 1) * (p + 1)) :
    (makeInterpolationPoints (makeInterpolationMask (p + 1)) u)[x]? = some (pt t l p x) := by
  obtain ⟨-, -, h3, h4⟩ := h.span _ (h.span_lt hx)
  have hr : x % (p + 1) < p + 1 := Nat.mod_lt x (by omega)
  have hm : (makeInterpolationMask (p + 1) : List ℝ)[x % (p + 1)]? = some (node p (x % (p + 1))) := by
    rw [mask_eq, List.getElem?_map, List.getElem?_range hr]; rfl
  have := points_get (makeInterpolationMask (p + 1)) u (x / (p + 1)) (x % (p + 1)) _ _ _ h3 h4 hm
  rw [show (makeInterpolationMask (p + 1) : List ℝ).length = p + 1 by simp [makeInterpolationMask], Nat.div_add_mod' x (p + 1)] at this
  exact this

theorem points_eq (h : Dir t n p u l) : makeInterpolationPoints (makeInterpolationMask (p + 1)) u =
    (List.range ((u.length - 1) * (p + 1))).map (pt t l p) := by
  refine List.ext_getElem? fun i => ?_
  by_cases hi : i < (u.length - 1) * (p + 1)
  · rw [h.point_get hi, List.getElem?_map, List.getElem?_range hi]; rfl
  · rw [List.getElem?_eq_none (by rw [points_length]; simp [makeInterpolationMask]; omega), List.getElem?_eq_none (by simp; omega)]

/-- Bezier basis functions at the interpolation points. -/
theorem bezBasis_eq (h : Dir t n p u l) (hp : p ≤ 20) {x c : Nat} (hx : x < (u.length - 1) * (p + 1)) (hc : c < (u.length - 1) * (p + 1))
    (coef : Nat → ℝ) (h0 : ∀ i ≤ p, coef i = 0) :
    ∃ coef', bezBasis u (p + 1) c (pt t l p x) coef = some (coll p x c, coef') ∧ ∀ i ≤ p, coef' i = 0 := by
  obtain ⟨-, -, h3, h4⟩ := h.span _ (h.span_lt hc)
  obtain ⟨-, -, g3, g4⟩ := h.span _ (h.span_lt hx)
  obtain ⟨m0, m1⟩ := h.pt_mem hx
  have hr : c % (p + 1) ≤ p := by have := Nat.mod_lt c (show p + 1 > 0 by omega); omega
  unfold bezBasis
  simp only [h3, h4, Option.bind_eq_bind, Option.bind_some]
  by_cases he : x / (p + 1) = c / (p + 1)
  · rw [← he, if_neg (by rintro (h | h) <;> linarith)]
    refine ⟨upd (upd coef (c % (p + 1)) 1) (c % (p + 1)) 0, ?_, ?_⟩
    · congr 2
      rw [show (((p + 1 : Nat) : Int) - 1) = (p : Int) by push_cast; ring,
        (C04_dispatch_partial (p : Int) (by omega) (by omega) _ _).1, Int.toNat_natCast, C01_coefs, sum_eq_single (c % (p + 1))]
      · unfold coll bern
        rw [if_pos he, rescale_eq]
        have hlt := h.lt (h.span_lt hx)
        have : (pt t l p x - t (l (x / (p + 1)))) / (t (l (x / (p + 1)) + 1) - t (l (x / (p + 1)))) = node p (x % (p + 1)) := by
          unfold pt
          rw [add_sub_cancel_left, mul_div_assoc, div_self (by linarith), mul_one]
        rw [this]
        simp [upd]
      · intro i hi hne
        have := mem_range.1 hi
        unfold upd
        rw [if_neg hne, h0 i (by omega), zero_mul]
      · intro hn; exact absurd (mem_range.2 (by omega)) hn
    · intro i hi
      unfold upd
      split
      · rfl
      · exact h0 i hi
  · have hout : pt t l p x > t (l (c / (p + 1)) + 1) ∨ pt t l p x < t (l (c / (p + 1))) := by
      rcases lt_or_gt_of_ne he with hlt | hlt
      · right
        have := h.good.le (i := x / (p + 1) + 1) (j := c / (p + 1)) (by omega) g4 h3
        linarith
      · left
        have := h.good.le (i := c / (p + 1) + 1) (j := x / (p + 1)) (by omega) h4 g3
        linarith
    rw [if_pos hout]
    refine ⟨coef, ?_, h0⟩
    unfold coll
    rw [if_neg he]

/-- The Bezier coefficients interpolate the B-splines. -/
theorem coll_ext (h : Dir t n p u l) {x : Nat} (hx : x < (u.length - 1) * (p + 1)) (i : Nat) :
    ∑ c ∈ Finset.range ((u.length - 1) * (p + 1)), coll p x c * ext t l p c i = bspline t n (pt t l p x) p i := by
  have hs := h.span_lt hx
  obtain ⟨m0, m1⟩ := h.pt_mem hx
  rw [h.bspline_eq hs _ m0.le (Or.inl m1), H2.sum_range_mul, sum_eq_single (x / (p + 1))]
  · refine sum_congr rfl fun r hr => ?_
    obtain ⟨e1, e2⟩ := divmod_pair (m := p + 1) (a := x / (p + 1)) (b := r) (mem_range.1 hr)
    unfold coll ext
    rw [e1, e2, if_pos rfl]
    congr 2
    have := h.lt hs
    unfold pt
    rw [add_sub_cancel_left, mul_div_assoc, div_self (by linarith), mul_one]
  · intro q _ hq
    refine sum_eq_zero fun r hr => ?_
    obtain ⟨e1, e2⟩ := divmod_pair (m := p + 1) (a := q) (b := r) (mem_range.1 hr)
    unfold coll
    rw [e2, if_neg (Ne.symm hq), zero_mul]
  · intro hn; exact absurd (mem_range.2 (by omega)) hn

end Dir

/-- A loop that preserves `I` and `G` and establishes `G` in step `k` (under the condition `C`). -/
theorem forOpt_hit {σ : Type} (n : Nat) (body : σ → Nat → Option σ) (I G : σ → Prop) (C : Prop) (k : Nat)
    (hstep : ∀ i < n, ∀ s, I s → ∃ s', body s i = some s' ∧ I s' ∧ (G s → G s') ∧ (i = k → C → G s')) (s : σ) (hI : I s) :
    ∃ s', forOpt n body s = some s' ∧ I s' ∧ (G s → G s') ∧ (k < n → C → G s') := by
  induction n with
  | zero => exact ⟨s, rfl, hI, id, by omega⟩
  | succ n ih =>
    obtain ⟨s1, a1, a2, a3, a4⟩ := ih fun i hi => hstep i (by omega)
    obtain ⟨s2, b1, b2, b3, b4⟩ := hstep n (by omega) s1 a2
    refine ⟨s2, by rw [forOpt_succ, a1]; exact b1, b2, fun h => b3 (a3 h), fun hk hC => ?_⟩
    by_cases e : n = k
    · exact b4 e hC
    · exact b3 (a4 (by omega) hC)

/-- Two nested loops. -/
theorem forOpt_hit2 {σ : Type} (n m : Nat) (body : σ → Nat → Nat → Option σ) (I G : σ → Prop) (C : Prop) (k l : Nat) (hl : l < m)
    (hstep : ∀ i < n, ∀ j < m, ∀ s, I s → ∃ s', body s i j = some s' ∧ I s' ∧ (G s → G s') ∧ (i = k → j = l → C → G s')) (s : σ) (hI : I s) :
    ∃ s', forOpt n (fun s i => forOpt m (fun s j => body s i j) s) s = some s' ∧ I s' ∧ (G s → G s') ∧ (k < n → C → G s') :=
  forOpt_hit n _ I G C k (fun i hi s hs => by
    obtain ⟨s', a1, a2, a3, a4⟩ := forOpt_hit m (fun s j => body s i j) I G (i = k ∧ C) l (fun j hj s hs => by
      obtain ⟨s', a1, a2, a3, a4⟩ := hstep i hi j hj s hs
      exact ⟨s', a1, a2, a3, fun h1 h2 => a4 h2.1 h1 h2.2⟩) s hs
    exact ⟨s', a1, a2, a3, fun h1 h2 => a4 hl ⟨h1, h2⟩⟩) s hI

/-- Four nested loops. -/
theorem forOpt_hit4 {σ : Type} (n m a b : Nat) (body : σ → Nat → Nat → Nat → Nat → Option σ) (I G : σ → Prop) (k l c d : Nat)
    (hk : k < n) (hl : l < m) (hc : c < a) (hd : d < b)
    (hstep : ∀ i < n, ∀ j < m, ∀ x < a, ∀ y < b, ∀ s, I s → ∃ s', body s i j x y = some s' ∧ I s' ∧ (G s → G s') ∧
      (i = k → j = l → x = c → y = d → G s')) (s : σ) (hI : I s) :
    ∃ s', forOpt n (fun s i => forOpt m (fun s j => forOpt a (fun s x => forOpt b (fun s y => body s i j x y) s) s) s) s = some s' ∧
      I s' ∧ G s' := by
  obtain ⟨s', a1, a2, -, a4⟩ := forOpt_hit2 n m (fun s i j => forOpt a (fun s x => forOpt b (fun s y => body s i j x y) s) s) I G True k l hl
    (fun i hi j hj s hs => by
      obtain ⟨s', a1, a2, a3, a4⟩ := forOpt_hit2 a b (fun s x y => body s i j x y) I G (i = k ∧ j = l) c d hd (fun x hx y hy s hs => by
        obtain ⟨s', a1, a2, a3, a4⟩ := hstep i hi j hj x hx y hy s hs
        exact ⟨s', a1, a2, a3, fun h1 h2 h3 => a4 h3.1 h3.2 h1 h2⟩) s hs
      exact ⟨s', a1, a2, a3, fun h1 h2 _ => a4 hc ⟨h1, h2⟩⟩) s hI
  exact ⟨s', a1, a2, a4 hk trivial⟩

/-- The interpolation matrix. -/
theorem bezierSystem_eq (junk : Nat → ℝ) {tx ty : Nat → ℝ} {nx ny p q : Nat} {ux uy : List ℝ} {lx ly : Nat → Nat} (hx : Dir tx nx p ux lx)
    (hy : Dir ty ny q uy ly) (hp : p ≤ 20) (hq : q ≤ 20) :
    ∃ A, bezierSystem junk ux uy (makeInterpolationPoints (makeInterpolationMask (p + 1)) ux)
        (makeInterpolationPoints (makeInterpolationMask (q + 1)) uy) (p + 1) (q + 1) ((ux.length - 1) * (p + 1)) ((uy.length - 1) * (q + 1)) = some A ∧
      ∀ x < (ux.length - 1) * (p + 1), ∀ y < (uy.length - 1) * (q + 1), ∀ ix < (ux.length - 1) * (p + 1), ∀ iy < (uy.length - 1) * (q + 1),
        A (y * ((ux.length - 1) * (p + 1)) + x) (ix * ((uy.length - 1) * (q + 1)) + iy) = coll p x ix * coll q y iy := by
  set NX := (ux.length - 1) * (p + 1) with hNX
  set NY := (uy.length - 1) * (q + 1) with hNY
  let I : (Nat → Nat → ℝ) × (Nat → ℝ) × (Nat → ℝ) → Prop := fun st => (∀ i ≤ p, st.2.1 i = 0) ∧ ∀ i ≤ q, st.2.2 i = 0
  have zero : ∀ (m : Nat), ∀ i < m, forLoop m (fun c i => upd c i 0) junk i = 0 := by
    intro m
    induction m with
    | zero => intro i hi; omega
    | succ m ih =>
      intro i hi
      rw [forLoop_succ]
      unfold upd
      split
      · rfl
      · exact ih i (by omega)
  have main : ∀ x0 < NX, ∀ y0 < NY, ∀ ix0 < NX, ∀ iy0 < NY, ∃ st, forOpt NY (fun st iy => forOpt NX (fun st ix => forOpt NY (fun st y => forOpt NX (fun st x => do
      let xp ← (makeInterpolationPoints (makeInterpolationMask (p + 1)) ux)[x]?
      let bx ← bezBasis ux (p + 1) ix xp st.2.1
      let yp ← (makeInterpolationPoints (makeInterpolationMask (q + 1)) uy)[y]?
      let bY ← bezBasis uy (q + 1) iy yp st.2.2
      some (upd2 st.1 (y * NX + x) (ix * NY + iy) (bx.1 * bY.1), bx.2, bY.2)) st) st) st)
      ((fun _ _ => 0 : Nat → Nat → ℝ), forLoop (p + 1) (fun c i => upd c i 0) junk, forLoop (q + 1) (fun c i => upd c i 0) junk) = some st ∧
      st.1 (y0 * NX + x0) (ix0 * NY + iy0) = coll p x0 ix0 * coll q y0 iy0 := by
    intro x0 hx0 y0 hy0 ix0 hix0 iy0 hiy0
    let G : (Nat → Nat → ℝ) × (Nat → ℝ) × (Nat → ℝ) → Prop := fun st =>
      st.1 (y0 * NX + x0) (ix0 * NY + iy0) = coll p x0 ix0 * coll q y0 iy0
    have body : ∀ iy < NY, ∀ ix < NX, ∀ y < NY, ∀ x < NX, ∀ st, I st → ∃ st', (do
        let xp ← (makeInterpolationPoints (makeInterpolationMask (p + 1)) ux)[x]?
        let bx ← bezBasis ux (p + 1) ix xp st.2.1
        let yp ← (makeInterpolationPoints (makeInterpolationMask (q + 1)) uy)[y]?
        let bY ← bezBasis uy (q + 1) iy yp st.2.2
        some (upd2 st.1 (y * NX + x) (ix * NY + iy) (bx.1 * bY.1), bx.2, bY.2)) = some st' ∧ I st' ∧ (G st → G st') ∧
        (iy = iy0 → ix = ix0 → y = y0 → x = x0 → G st') := by
      intro iy hiy ix hix y hyy x hxx st hI
      obtain ⟨c1, e1, z1⟩ := hx.bezBasis_eq hp (x := x) (c := ix) hxx hix st.2.1 hI.1
      obtain ⟨c2, e2, z2⟩ := hy.bezBasis_eq hq (x := y) (c := iy) hyy hiy st.2.2 hI.2
      simp only [hx.point_get hxx, hy.point_get hyy, Option.bind_eq_bind, Option.bind_some, e1, e2]
      refine ⟨_, rfl, ⟨z1, z2⟩, ?_, ?_⟩
      · intro hG
        show upd2 _ _ _ _ _ _ = _
        unfold upd2
        split
        · rename_i h
          obtain ⟨r, c⟩ := h
          have a1 := divmod_pair (m := NX) (a := y0) (b := x0) hx0
          have a2 := divmod_pair (m := NX) (a := y) (b := x) hxx
          have a3 := divmod_pair (m := NY) (a := ix0) (b := iy0) hiy0
          have a4 := divmod_pair (m := NY) (a := ix) (b := iy) hiy
          rw [← r] at a2
          rw [← c] at a4
          rw [show x = x0 by rw [← a2.1, a1.1], show y = y0 by rw [← a2.2, a1.2], show ix = ix0 by rw [← a4.2, a3.2],
            show iy = iy0 by rw [← a4.1, a3.1]]
        · exact hG
      · rintro rfl rfl rfl rfl
        show upd2 _ _ _ _ _ _ = _
        unfold upd2
        rw [if_pos ⟨rfl, rfl⟩]
    have s0 : I ((fun _ _ => 0 : Nat → Nat → ℝ), forLoop (p + 1) (fun c i => upd c i 0) junk, forLoop (q + 1) (fun c i => upd c i 0) junk) :=
      ⟨fun i hi => zero _ i (by omega), fun i hi => zero _ i (by omega)⟩
    obtain ⟨st, a1, -, a2⟩ := forOpt_hit4 NY NX NY NX _ I G iy0 ix0 y0 x0 hiy0 hix0 hy0 hx0 body _ s0
    exact ⟨st, a1, a2⟩
  have hex : ∃ st, forOpt NY (fun st iy => forOpt NX (fun st ix => forOpt NY (fun st y => forOpt NX (fun st x => do
      let xp ← (makeInterpolationPoints (makeInterpolationMask (p + 1)) ux)[x]?
      let bx ← bezBasis ux (p + 1) ix xp st.2.1
      let yp ← (makeInterpolationPoints (makeInterpolationMask (q + 1)) uy)[y]?
      let bY ← bezBasis uy (q + 1) iy yp st.2.2
      some (upd2 st.1 (y * NX + x) (ix * NY + iy) (bx.1 * bY.1), bx.2, bY.2)) st) st) st)
      ((fun _ _ => 0 : Nat → Nat → ℝ), forLoop (p + 1) (fun c i => upd c i 0) junk, forLoop (q + 1) (fun c i => upd c i 0) junk) = some st := by
    have h2x := hx.good.two
    have h2y := hy.good.two
    have hX : 0 < NX := Nat.mul_pos (by omega) (by omega)
    have hY : 0 < NY := Nat.mul_pos (by omega) (by omega)
    obtain ⟨st, h, -⟩ := main 0 hX 0 hY 0 hX 0 hY
    exact ⟨st, h⟩
  obtain ⟨st, hst⟩ := hex
  refine ⟨st.1, ?_, ?_⟩
  · unfold bezierSystem
    simp only [Option.bind_eq_bind] at hst ⊢
    rw [hst]
    rfl
  · intro x hx y hy ix hix iy hiy
    obtain ⟨st', h1, h2⟩ := main x hx y hy ix hix iy hiy
    rw [hst, Option.some.injEq] at h1
    rw [h1, h2]

end Bembel.Spl
