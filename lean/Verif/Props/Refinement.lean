import Verif.Props.AnsatzSpace
import Verif.Lemmas.SpaceRefine
import Verif.Spec.Refinement
/-!
# C79: refinement enlarges the ansatz spaces
-/

set_option linter.unusedSectionVars false

open Finset

namespace Bembel.Props
namespace Refinement
open Spec Spl Mesh Projector Glue Ansatz Refine

variable {V : Type} (near : V → V → Bool) (corner : Nat → Nat → V)
variable {R : Type} [Field R] [Algebra ℝ R]

theorem elementValue_congr (P qx qy n r X Y : Nat) (g g' : Nat → R) (h : ∀ c < splineDim qx n r * splineDim qy n r, g c = g' c) (s : ℝ × ℝ) :
    elementValue P qx qy n r X Y g s = elementValue P qx qy n r X Y g' s := by
  unfold elementValue
  exact sum_congr rfl fun i _ => sum_congr rfl fun c hc => by rw [h c (mem_range.1 hc)]

theorem elementValue_smul (P qx qy n r X Y : Nat) (g : Nat → R) (w : ℝ) (s : ℝ × ℝ) :
    elementValue P qx qy n r X Y (fun c => w • g c) s = w • elementValue P qx qy n r X Y g s := by
  unfold elementValue
  rw [smul_sum]
  refine sum_congr rfl fun i _ => ?_
  rw [smul_sum]
  exact sum_congr rfl fun c _ => smul_comm _ _ _

/-- The scaled values on nested elements. -/
theorem value_refine (P qx qy r M k X Y : Nat) (hP : P ≤ 4) (hqx : 1 ≤ qx) (hqy : 1 ≤ qy) (hx : qx = P + 1 ∨ qx = P) (hy : qy = P + 1 ∨ qy = P)
    (hr : 1 ≤ r) (hrx : r ≤ qx) (hry : r ≤ qy) (hX : X < 2 ^ (M + k)) (hY : Y < 2 ^ (M + k)) (g : Nat → R) (s s' : ℝ × ℝ)
    (h1 : (((X / 2 ^ k : Nat) : ℝ) + s.1) / 2 ^ M = ((X : ℝ) + s'.1) / 2 ^ (M + k))
    (h2 : (((Y / 2 ^ k : Nat) : ℝ) + s.2) / 2 ^ M = ((Y : ℝ) + s'.2) / 2 ^ (M + k)) :
    (1 / (1 / 2 ^ M) : ℝ) • elementValue P qx qy (2 ^ M) r (X / 2 ^ k) (Y / 2 ^ k) g s =
    (1 / (1 / 2 ^ (M + k)) : ℝ) • elementValue P qx qy (2 ^ (M + k)) r X Y (fun c => (1 / 2 ^ k : ℝ) • refineK qx qy r M g k c) s' := by
  have hd : ∀ X, X < 2 ^ (M + k) → X / 2 ^ k < 2 ^ M := by
    intro X hX
    rw [Nat.div_lt_iff_lt_mul (by positivity), ← pow_add]; exact hX
  rw [elementValue_smul, smul_smul, elementValue_piece P qx qy _ r _ _ hP hqx hqy hx hy hr (hd X hX) (hd Y hY),
    elementValue_piece P qx qy _ r X Y hP hqx hqy hx hy hr hX hY, patchValue_refineK qx qy r M hqx hqy hr hrx hry g _ k X Y hX hY]
  push_cast
  rw [h1, h2]
  congr 1
  rw [pow_add]; field_simp

/-- Positions of nested elements. -/
theorem nested (nP M k : Nat) (hnP : 0 < nP) (t t' : Mesh.Tree ℝ) (ht : initElementTree near corner nP M = some t)
    (ht' : initElementTree near corner nP (M + k) = some t') (a b : Addr) (ha : IsNode nP M a) (hb : IsNode nP (M + k) b)
    (h : SubElement t t' M (M + k) a b) :
    t.patch a = a.1 ∧ t'.patch b = b.1 ∧ a.1 = b.1 ∧ posX a.2 = posX b.2 / 2 ^ k ∧ posY a.2 = posY b.2 / 2 ^ k ∧ posX b.2 < 2 ^ (M + k) ∧ posY b.2 < 2 ^ (M + k) ∧
      ∀ s s', SamePoint t t' M (M + k) a b s s' →
        (((posX b.2 / 2 ^ k : Nat) : ℝ) + s.1) / 2 ^ M = ((posX b.2 : ℝ) + s'.1) / 2 ^ (M + k) ∧
        (((posY b.2 / 2 ^ k : Nat) : ℝ) + s.2) / 2 ^ M = ((posY b.2 : ℝ) + s'.2) / 2 ^ (M + k) := by
  obtain ⟨u, g1, g2, -⟩ := tree_facts (K := ℝ) near corner nP M hnP
  obtain rfl : u = t := Option.some.inj (g1.symm.trans ht)
  obtain ⟨u', g1', g2', -⟩ := tree_facts (K := ℝ) near corner nP (M + k) hnP
  obtain rfl : u' = t' := Option.some.inj (g1'.symm.trans ht')
  obtain ⟨-, -, p1, l1⟩ := g2 M le_rfl a (mem_leaves.2 ha)
  obtain ⟨-, -, p2, l2⟩ := g2' (M + k) le_rfl b (mem_leaves.2 hb)
  rw [ha.2.1] at l1
  rw [hb.2.1] at l2
  have pb := pos_lt b.2
  rw [hb.2.1] at pb
  obtain ⟨h0, h1, h2, h3, h4⟩ := h
  rw [l1, l2] at h1 h2 h3 h4
  have key : ∀ x y : Nat, (x : ℝ) / 2 ^ M ≤ (y : ℝ) / 2 ^ (M + k) → (y : ℝ) / 2 ^ (M + k) + 1 / 2 ^ (M + k) ≤ (x : ℝ) / 2 ^ M + 1 / 2 ^ M → x = y / 2 ^ k := by
    intro x y e1 e2
    rw [pow_add] at e1 e2
    have hM : (0 : ℝ) < 2 ^ M := by positivity
    have hk : (0 : ℝ) < 2 ^ k := by positivity
    have e1' : (x : ℝ) * 2 ^ k ≤ y := by
      rw [div_le_div_iff₀ hM (by positivity)] at e1
      have : (x : ℝ) * 2 ^ k * 2 ^ M ≤ y * 2 ^ M := by linarith
      exact le_of_mul_le_mul_right this hM
    have e2' : (y : ℝ) + 1 ≤ (x + 1) * 2 ^ k := by
      rw [← add_div, ← add_div, div_le_div_iff₀ (by positivity) hM] at e2
      have : ((y : ℝ) + 1) * 2 ^ M ≤ (x + 1) * 2 ^ k * 2 ^ M := by linarith
      exact le_of_mul_le_mul_right this hM
    have n1 : x * 2 ^ k ≤ y := by exact_mod_cast e1'
    have n2 : y + 1 ≤ (x + 1) * 2 ^ k := by exact_mod_cast e2'
    refine (Nat.div_eq_of_lt_le n1 (by omega)).symm
  have kx := key _ _ h1 h2
  have ky := key _ _ h3 h4
  refine ⟨p1, p2, by rw [← p1, ← p2]; exact h0, kx, ky, pb.1, pb.2, ?_⟩
  rintro s s' ⟨q1, q2⟩
  rw [l1, l2] at q1 q2
  rw [← kx, ← ky, add_div, add_div, add_div, add_div]
  exact ⟨q1, q2⟩

/-- Dof number of coefficient `c` of patch `p`. -/
theorem patch_digits {D p c : Nat} (hc : c < D) : (p * D + c) / D = p ∧ (p * D + c) % D = c := (divmod_pair hc).symm

/-- The element at a grid position. -/
theorem exists_path : ∀ (k x y : Nat), x < 2 ^ k → y < 2 ^ k → ∃ l : List Nat, l.length = k ∧ (∀ i ∈ l, i < 4) ∧ posX l = x ∧ posY l = y
  | 0, x, y, hx, hy => ⟨[], rfl, by simp, by simp at hx; simp [posX, hx], by simp at hy; simp [posY, hy]⟩
  | k + 1, x, y, hx, hy => by
    rw [pow_succ] at hx hy
    obtain ⟨l, h1, h2, h3, h4⟩ := exists_path k (x / 2) (y / 2) (by omega) (by omega)
    rcases Nat.mod_two_eq_zero_or_one x with ex | ex <;> rcases Nat.mod_two_eq_zero_or_one y with ey | ey
    · refine ⟨0 :: l, by simp [h1], by simpa using h2, ?_, ?_⟩
      · rw [posX, h3]; simp; omega
      · rw [posY, h4]; simp; omega
    · refine ⟨3 :: l, by simp [h1], by simpa using h2, ?_, ?_⟩
      · rw [posX, h3]; simp; omega
      · rw [posY, h4]; simp; omega
    · refine ⟨1 :: l, by simp [h1], by simpa using h2, ?_, ?_⟩
      · rw [posX, h3]; simp; omega
      · rw [posY, h4]; simp; omega
    · refine ⟨2 :: l, by simp [h1], by simpa using h2, ?_, ?_⟩
      · rw [posX, h3]; simp; omega
      · rw [posY, h4]; simp; omega

/-- The values of the functions of the discontinuous space. -/
theorem disc_value (junk : Nat → ℝ) (junkM : Nat → Nat → ℝ) (solve) (hs : SolvesSystems solve) (P M nP rep : Nat) (hnP : 0 < nP) (hP : P ≤ 19) (hrep : 1 ≤ rep)
    (t : Mesh.Tree ℝ) (ht : initElementTree near corner nP M = some t) (T : EMat ℝ)
    (hT : transformationDisc junk junkM solve t P M nP rep = some T) (a : Addr) (ha : IsNode nP M a) (hpa : t.patch a = a.1) (g : EMat R) (s : ℝ × ℝ) :
    discreteFunction (ofReal R T) g (nP * 4 ^ M) P 0 (t.id a) (1 / 2 ^ M) s =
      (1 / (1 / 2 ^ M) : ℝ) • elementValue P (P + 1) (P + 1) (2 ^ M) (min rep (P + 1)) (posX a.2) (posY a.2)
        (fun c => g.at' (a.1 * (splineDim (P + 1) (2 ^ M) (min rep (P + 1)) * splineDim (P + 1) (2 ^ M) (min rep (P + 1))) + c) 0) s := by
  obtain ⟨A, T1, c1, c2, c3, c4, c5⟩ := C64_discontinuous near corner junk junkM solve hs P M nP rep hnP (by omega) hrep t ht
  obtain rfl : T1 = T := Option.some.inj (c2.symm.trans hT)
  obtain ⟨A', h1, h2, h3, h4⟩ := disc_matrix near corner junk junkM solve hs P M nP rep hnP (by omega) hrep t ht
  obtain rfl : A' = A := Option.some.inj (h1.symm.trans c1)
  have hcols : T1.cols = nP * (splineDim (P + 1) (2 ^ M) (min rep (P + 1)) * splineDim (P + 1) (2 ^ M) (min rep (P + 1))) := by rw [c4, h3]; rfl
  have := discreteFunction_element (R := R) T1 P M nP (P + 1) (P + 1) (min rep (P + 1)) 0 0 0 t a hpa ha.1 (by simp) (by rw [hcols]; omega)
    (by
      intro pa hpa' c i hi hc
      rw [Nat.zero_add, Nat.zero_add, c5 _ _ ?_]
      · exact h4 a ha pa c i hi hc
      · rw [← c4, hcols]
        have : (pa + 1) * (splineDim (P + 1) (2 ^ M) (min rep (P + 1)) * splineDim (P + 1) (2 ^ M) (min rep (P + 1))) ≤
          nP * (splineDim (P + 1) (2 ^ M) (min rep (P + 1)) * splineDim (P + 1) (2 ^ M) (min rep (P + 1))) := Nat.mul_le_mul_right _ hpa'
        rw [Nat.add_mul, Nat.one_mul] at this
        omega)
    (by intro i _ c hc h; omega) (fun c => g.at' c 0) (1 / 2 ^ M) s
  simp only [Nat.zero_add] at this
  exact this

end Refinement

open Spec Spl Mesh Projector Glue Ansatz Refine Refinement

variable {V : Type} (near : V → V → Bool) (corner : Nat → Nat → V)
variable {R : Type} [Field R] [Algebra ℝ R]

/-- C79 (discontinuous spaces): every discrete function of the space of level `M` is a discrete function of the space of every finer level `M'`. -/
theorem C79_discontinuous (junk junk' : Nat → ℝ) (junkM junkM' : Nat → Nat → ℝ) (solve solve') (hs : SolvesSystems solve) (hs' : SolvesSystems solve')
    (P M M' nP rep : Nat) (hnP : 0 < nP) (hP : P ≤ 4) (hrep : 1 ≤ rep) (hM : M ≤ M')
    (t t' : Mesh.Tree ℝ) (ht : initElementTree near corner nP M = some t) (ht' : initElementTree near corner nP M' = some t')
    (T T' : EMat ℝ) (hT : transformationDisc junk junkM solve t P M nP rep = some T) (hT' : transformationDisc junk' junkM' solve' t' P M' nP rep = some T')
    (f : EMat R) :
    ∃ f' : EMat R, f'.rows = T'.cols ∧ f'.cols = 1 ∧ ∀ a b, IsNode nP M a → IsNode nP M' b → SubElement t t' M M' a b →
      ∀ s s', SamePoint t t' M M' a b s s' →
        discreteFunction (ofReal R T) f (nP * 4 ^ M) P 0 (t.id a) (1 / 2 ^ M) s =
        discreteFunction (ofReal R T') f' (nP * 4 ^ M') P 0 (t'.id b) (1 / 2 ^ M') s' := by
  obtain ⟨k, rfl⟩ := Nat.exists_eq_add_of_le hM
  set r := min rep (P + 1) with hr
  set D := splineDim (P + 1) (2 ^ M) r * splineDim (P + 1) (2 ^ M) r with hD
  set D' := splineDim (P + 1) (2 ^ (M + k)) r * splineDim (P + 1) (2 ^ (M + k)) r with hD'
  refine ⟨⟨T'.cols, 1, fun d _ => (1 / 2 ^ k : ℝ) • refineK (P + 1) (P + 1) r M (fun c => f.at' (d / D' * D + c) 0) k (d % D')⟩, rfl, rfl, ?_⟩
  intro a b ha hb hab s s' hss
  obtain ⟨p1, p2, p3, px, py, lx, ly, sp⟩ := nested near corner nP M k hnP t t' ht ht' a b ha hb hab
  obtain ⟨q1, q2⟩ := sp s s' hss
  rw [disc_value near corner _ _ _ hs P _ nP rep hnP (by omega) hrep t ht T hT a ha p1, disc_value near corner _ _ _ hs' P _ nP rep hnP (by omega) hrep t' ht' T' hT' b hb p2, px, py,
    value_refine P (P + 1) (P + 1) r M k _ _ hP (by omega) (by omega) (Or.inl rfl) (Or.inl rfl) (by omega) (by omega) (by omega) lx ly _ s s' q1 q2]
  congr 1
  refine elementValue_congr _ _ _ _ _ _ _ _ _ (fun c hc => ?_) _
  simp only []
  rw [(patch_digits hc).1, (patch_digits hc).2, p3]

/-- C79 (continuous spaces): every discrete function of the continuous space of level `M` is a discrete function of the continuous space of every finer
level `M'`, whenever the two transformation matrices have been computed. -/
theorem C79_continuous (junk junk' : Nat → ℝ) (junkM junkM' : Nat → Nat → ℝ) (solve solve') (hs : SolvesSystems solve) (hs' : SolvesSystems solve')
    (P M M' nP rep : Nat) (hnP : 0 < nP) (hP0 : 0 < P) (hP : P ≤ 4) (hrep : 1 ≤ rep) (hrP : rep ≤ P) (hM : M ≤ M')
    (hc : ConformingPatches near corner nP) (ho : OrientedPatches corner nP)
    (t t' : Mesh.Tree ℝ) (ht : initElementTree near corner nP M = some t) (ht' : initElementTree near corner nP M' = some t')
    (T T' : EMat ℝ) (hT : transformationCont junk junkM solve t P M nP rep = some T) (hT' : transformationCont junk' junkM' solve' t' P M' nP rep = some T')
    (f : EMat R) :
    ∃ f' : EMat R, f'.rows = T'.cols ∧ f'.cols = 1 ∧ ∀ a b, IsNode nP M a → IsNode nP M' b → SubElement t t' M M' a b →
      ∀ s s', SamePoint t t' M M' a b s s' →
        discreteFunction (ofReal R T) f (nP * 4 ^ M) P 0 (t.id a) (1 / 2 ^ M) s =
        discreteFunction (ofReal R T') f' (nP * 4 ^ M') P 0 (t'.id b) (1 / 2 ^ M') s' := by
  obtain ⟨k, rfl⟩ := Nat.exists_eq_add_of_le hM
  set n := splineDim (P + 1) (2 ^ M) rep with hn
  set n' := splineDim (P + 1) (2 ^ (M + k)) rep with hn'
  obtain ⟨A, G, trips, col, val, c1, c2, c3, c4, c5, c6, c7⟩ := cont_facts near corner junk junkM solve hs P M nP rep hnP hP0 (by omega) hrep hrP hc ho t ht T hT
  rw [← hn] at c3 c5 c7
  set γ : Nat → R := fun d => (val d : ℝ) • f.at' (col d) 0 with hγ
  set g' : Nat → R := fun d => (1 / 2 ^ k : ℝ) • refineK (P + 1) (P + 1) rep M (fun c => γ (d / (n' * n') * (n * n) + c)) k (d % (n' * n')) with hg'
  have pos : ∀ m, 0 < m → ∀ i < 4, ∀ d < m, edgeY m i d * m + edgeX m i d < m * m := by
    intro m hm i hi d hd
    have := edgePos_lt (n := m) hm hi hd
    have h2 : (edgeY m i d + 1) * m ≤ m * m := Nat.mul_le_mul_right _ this.2
    rw [Nat.add_mul, Nat.one_mul] at h2
    omega
  have eD : ∀ m p i d, edgeDof m p i d = p * (m * m) + (edgeY m i d * m + edgeX m i d) := by
    intro m p i d; unfold edgeDof dofIndex; ring
  have n0 : 0 < n := dim_pos _ _ _ (by omega)
  have n0' : 0 < n' := dim_pos _ _ _ (by omega)
  have lt : ∀ p i d, p < nP → i < 4 → d < n → edgeDof n p i d < A.cols := by
    intro p i d hp hi hd
    have := pos n n0 i hi d hd
    rw [c3, eD]
    have h1 : (p + 1) * (n * n) ≤ nP * (n * n) := Nat.mul_le_mul_right _ hp
    rw [Nat.add_mul, Nat.one_mul] at h1
    omega
  have link : ∀ d e, Linked corner nP (P + 1 + (2 ^ (M + k) - 1) * rep) d e → g' d = g' e := by
    intro d e h
    have hdim : P + 1 + (2 ^ (M + k) - 1) * rep = n' := rfl
    rw [hdim] at h
    induction h with
    | refl => rfl
    | symm _ _ _ ih => exact ih.symm
    | trans _ _ _ _ _ ih1 ih2 => exact ih1.trans ih2
    | rel d e h =>
      obtain ⟨p, q, i, l, s, hp, hq, hpq, hi, hl, hE, hs, rfl, rfl⟩ := h
      have m := refineK_match (R := R) (P + 1) (P + 1) (P + 1) (P + 1) rep M i l (by omega) (by omega) (by omega) (by omega) hrep (by omega) (by omega) (by omega)
        (by omega) hi hl (P + 1) (by simp [edgeOrder]) (by simp [edgeOrder]) (fun c => γ (p * (n * n) + c)) (fun c => γ (q * (n * n) + c)) 1 (-1) (by
          intro s hs
          rw [← hn] at hs ⊢
          rw [← eD, ← eD, one_smul, neg_one_smul, ← sub_eq_add_neg, sub_eq_zero]
          have l1 := lt p i s hp hi hs
          have l2 := lt q l (n - 1 - s) hq hl (by omega)
          simp only [hγ]
          rw [c6 _ l1, c6 _ l2]
          have := (c5.same _ (c4.mem _ l1) _ (c4.mem _ l2)).2 (Or.inr (Relation.EqvGen.rel _ _ ⟨p, q, i, l, s, hp, hq, hpq, hi, hl, hE, hs, rfl, rfl⟩))
          simp only at this
          rw [this]) k s hs
      rw [← hn', one_smul, neg_one_smul, ← sub_eq_add_neg, sub_eq_zero] at m
      simp only [hg', eD]
      rw [(patch_digits (pos n' n0' i hi s hs)).1, (patch_digits (pos n' n0' i hi s hs)).2, (patch_digits (pos n' n0' l hl (n' - 1 - s) (by omega))).1,
        (patch_digits (pos n' n0' l hl (n' - 1 - s) (by omega))).2, m]
  obtain ⟨A', h1, f', h2, h3, h4⟩ := C64_continuous_complete near corner junk' junkM' solve' hs' P (M + k) nP rep hnP hP0 (by omega) hrep hrP hc ho t' ht' T' hT' g' link
  refine ⟨f', h2, h3, ?_⟩
  intro a b ha hb hab s s' hss
  obtain ⟨p1, p2, p3, px, py, lx, ly, sp⟩ := nested near corner nP M k hnP t t' ht ht' a b ha hb hab
  obtain ⟨q1, q2⟩ := sp s s' hss
  obtain ⟨B, G', trips', col', val', d1, d2, d3, d4, d5, d6, d7⟩ := cont_facts near corner junk' junkM' solve' hs' P (M + k) nP rep hnP hP0 (by omega) hrep hrP hc ho t' ht' T' hT'
  obtain rfl : B = A' := Option.some.inj (d1.symm.trans h1)
  rw [h4, discreteFunction_mul A G T f c2 trips col val c4,
    discreteFunction_element A P M nP (P + 1) (P + 1) rep 0 0 0 t a p1 ha.1 (by simp) (by rw [c3, hn]; omega)
      (by intro pa _ c i hi hc; rw [Nat.zero_add, Nat.zero_add]; exact c7 a ha pa c i hi hc) (by intro i _ c hc h; rw [c3, hn] at hc; omega) γ,
    discreteFunction_element B P (M + k) nP (P + 1) (P + 1) rep 0 0 0 t' b p2 hb.1 (by simp) (by rw [d3]; omega)
      (by intro pa _ c i hi hc; rw [Nat.zero_add, Nat.zero_add]; exact d7 b hb pa c i hi hc) (by intro i _ c hc h; rw [d3] at hc; omega) g', px, py,
    value_refine P (P + 1) (P + 1) rep M k _ _ hP (by omega) (by omega) (Or.inl rfl) (Or.inl rfl) (by omega) (by omega) (by omega) lx ly _ s s' q1 q2]
  congr 1
  refine elementValue_congr _ _ _ _ _ _ _ _ _ (fun c hc => ?_) _
  simp only [hg', Nat.zero_add]
  rw [(patch_digits hc).1, (patch_digits hc).2, p3]

/-- C79 (divergence conforming spaces): every discrete field of the divergence conforming space of level `M` is a discrete field of the space of every finer
level `M'`. -/
theorem C79_divergence (junk junk' : Nat → ℝ) (junkM junkM' : Nat → Nat → ℝ) (solve solve') (hs : SolvesSystems solve) (hs' : SolvesSystems solve')
    (P M M' nP rep : Nat) (hnP : 0 < nP) (hP0 : 0 < P) (hP : P ≤ 4) (hrep : 1 ≤ rep) (hrP : rep ≤ P) (hM : M ≤ M')
    (hc : ConformingPatches near corner nP)
    (t t' : Mesh.Tree ℝ) (ht : initElementTree near corner nP M = some t) (ht' : initElementTree near corner nP M' = some t')
    (T T' : EMat ℝ) (hT : transformationDiv junk junkM solve t P M nP rep = some T) (hT' : transformationDiv junk' junkM' solve' t' P M' nP rep = some T')
    (f : EMat R) :
    ∃ f' : EMat R, f'.rows = T'.cols ∧ f'.cols = 1 ∧ ∀ a b, IsNode nP M a → IsNode nP M' b → SubElement t t' M M' a b →
      ∀ s s', SamePoint t t' M M' a b s s' → ∀ d < 2,
        discreteFunction (ofReal R T) f (nP * 4 ^ M) P d (t.id a) (1 / 2 ^ M) s =
        discreteFunction (ofReal R T') f' (nP * 4 ^ M') P d (t'.id b) (1 / 2 ^ M') s' := by
  obtain ⟨k, rfl⟩ := Nat.exists_eq_add_of_le hM
  obtain ⟨A, G, T1, trips, col, val, c1, c2, c3, -, c4, c5, c6, c7, c8⟩ := div_facts near corner junk junkM solve hs P M nP rep hnP hP0 (by omega) hrep hrP hc t ht
  obtain rfl : T1 = T := Option.some.inj (c2.symm.trans hT)
  let D : Nat → Nat := fun M => splineDim (P + 1) (2 ^ M) rep * splineDim P (2 ^ M) rep
  let off : Nat → Nat → Nat := fun M i => if i = 1 ∨ i = 3 then 0 else nP * D M
  let qx : Nat → Nat := fun i => if i = 1 ∨ i = 3 then P + 1 else P
  let qy : Nat → Nat := fun i => if i = 1 ∨ i = 3 then P else P + 1
  have qx1 : ∀ i, 1 ≤ qx i := fun i => by simp only [qx]; split_ifs <;> omega
  have qy1 : ∀ i, 1 ≤ qy i := fun i => by simp only [qy]; split_ifs <;> omega
  have qxr : ∀ i, rep ≤ qx i := fun i => by simp only [qx]; split_ifs <;> omega
  have qyr : ∀ i, rep ≤ qy i := fun i => by simp only [qy]; split_ifs <;> omega
  have qxP : ∀ i, qx i = P + 1 ∨ qx i = P := fun i => by simp only [qx]; split_ifs <;> simp
  have qyP : ∀ i, qy i = P + 1 ∨ qy i = P := fun i => by simp only [qy]; split_ifs <;> simp
  have dimD : ∀ M i, splineDim (qx i) (2 ^ M) rep * splineDim (qy i) (2 ^ M) rep = D M := fun M i => by
    simp only [qx, qy, D]; split_ifs
    · rfl
    · exact Nat.mul_comm _ _
  have tang : ∀ i < 4, edgeOrder (qx i) (qy i) i = P := by
    intro i hi
    rcases four_cases hi with rfl | rfl | rfl | rfl <;> simp [edgeOrder, qx, qy]
  have hl : ∀ M, splineDim (P + 1) (2 ^ M) rep = P + rep * (2 ^ M - 1) + 1 := fun M => by unfold splineDim; ring
  have hsm : ∀ M, splineDim P (2 ^ M) rep = P + rep * (2 ^ M - 1) := fun M => by unfold splineDim; ring
  have idx : ∀ M, ∀ i < 4, ∀ p d, normalDof (P + rep * (2 ^ M - 1)) nP p i d = off M i + (p * D M +
      (edgeY (splineDim (qy i) (2 ^ M) rep) i d * splineDim (qx i) (2 ^ M) rep + edgeX (splineDim (qx i) (2 ^ M) rep) i d)) := by
    intro M i hi p d
    unfold normalDof
    simp only [off, qx, qy, D]
    by_cases h : i = 1 ∨ i = 3
    · simp only [if_pos h, hl, hsm]; ring
    · simp only [if_neg h, hl, hsm]; ring
  have pos : ∀ M, ∀ i < 4, ∀ d < splineDim P (2 ^ M) rep,
      edgeY (splineDim (qy i) (2 ^ M) rep) i d * splineDim (qx i) (2 ^ M) rep + edgeX (splineDim (qx i) (2 ^ M) rep) i d < D M := by
    intro M i hi d hd
    have h1 : edgeX (splineDim (qx i) (2 ^ M) rep) i d < splineDim (qx i) (2 ^ M) rep ∧ edgeY (splineDim (qy i) (2 ^ M) rep) i d < splineDim (qy i) (2 ^ M) rep := by
      have := dim_pos (qx i) (2 ^ M) rep (qx1 i)
      have := dim_pos (qy i) (2 ^ M) rep (qy1 i)
      rcases four_cases hi with rfl | rfl | rfl | rfl <;> simp [edgeX, edgeY, qx, qy] at * <;> omega
    rw [← dimD M i, Nat.mul_comm (splineDim (qx i) _ _)]
    have h2 : (edgeY (splineDim (qy i) (2 ^ M) rep) i d + 1) * splineDim (qx i) (2 ^ M) rep ≤ splineDim (qy i) (2 ^ M) rep * splineDim (qx i) (2 ^ M) rep :=
      Nat.mul_le_mul_right _ h1.2
    rw [Nat.add_mul, Nat.one_mul] at h2
    omega
  let γ : Nat → R := fun d => (val d : ℝ) • f.at' (col d) 0
  let part : Nat → Nat → Nat → Nat → R := fun i p k c => (1 / 2 ^ k : ℝ) • refineK (qx i) (qy i) rep M (fun c => γ (off M i + (p * D M + c))) k c
  let g' : Nat → R := fun d => if d < nP * D (M + k) then part 1 (d / D (M + k)) k (d % D (M + k))
    else part 0 ((d - nP * D (M + k)) / D (M + k)) k ((d - nP * D (M + k)) % D (M + k))
  have partEq : ∀ i, part i = if i = 1 ∨ i = 3 then part 1 else part 0 := by
    intro i
    split_ifs with h
    · simp only [part, qx, qy, off, if_pos h]; simp
    · simp only [part, qx, qy, off, if_neg h]; simp
  have gEq : ∀ i, ∀ p < nP, ∀ c < D (M + k), g' (off (M + k) i + (p * D (M + k) + c)) = part i p k c := by
    intro i p hp c hcD
    have h1 : (p + 1) * D (M + k) ≤ nP * D (M + k) := Nat.mul_le_mul_right _ hp
    rw [Nat.add_mul, Nat.one_mul] at h1
    rw [partEq i]
    simp only [g', off]
    split_ifs with h2 h3 h3
    · rw [Nat.zero_add, (patch_digits hcD).1, (patch_digits hcD).2]
    · omega
    · omega
    · rw [Nat.add_sub_cancel_left, (patch_digits hcD).1, (patch_digits hcD).2]
  have balance : ∀ p q i l s d e, NormalPaired corner nP (P + rep * (2 ^ (M + k) - 1)) p i q l s d e →
      (outwardSign i : ℝ) • g' d + (outwardSign l : ℝ) • g' e = 0 := by
    rintro p q i l s d e ⟨hp, hq, hpq, hi, hl', hE, hs, rfl, rfl⟩
    rw [← hsm] at hs
    rw [idx (M + k) i hi, idx (M + k) l hl', ← hsm]
    rw [gEq i p hp _ (pos (M + k) i hi s hs), gEq l q hq _ (pos (M + k) l hl' _ (by omega))]
    have m := refineK_match (R := R) (qx i) (qy i) (qx l) (qy l) rep M i l (qx1 i) (qy1 i) (qx1 l) (qy1 l) hrep (qxr i) (qyr i) (qxr l) (qyr l) hi hl' P
      (tang i hi) (tang l hl') (fun c => γ (off M i + (p * D M + c))) (fun c => γ (off M l + (q * D M + c))) (outwardSign i) (outwardSign l) (by
        intro s hs
        rw [← idx M i hi, ← idx M l hl', hsm]
        rw [hsm] at hs
        have np : NormalPaired corner nP (P + rep * (2 ^ M - 1)) p i q l s _ _ := ⟨hp, hq, hpq, hi, hl', hE, hs, rfl, rfl⟩
        have l1 : normalDof (P + rep * (2 ^ M - 1)) nP p i s < A.cols := by rw [c4]; exact normalDof_lt hi hs hp
        have l2 : normalDof (P + rep * (2 ^ M - 1)) nP q l (P + rep * (2 ^ M - 1) - 1 - s) < A.cols := by rw [c4]; exact normalDof_lt hl' (by omega) hq
        have same := (c6.same _ (c5.mem _ l1) _ (c5.mem _ l2)).2 (Or.inr ⟨_, _, _, _, _, np⟩)
        simp only at same
        have flux := c7 _ (c5.mem _ l1) _ (c5.mem _ l2) _ _ _ _ _ np
        simp only at flux
        simp only [γ]
        rw [same, smul_smul, smul_smul, ← add_smul]
        have : (outwardSign i : ℝ) * (val (normalDof (P + rep * (2 ^ M - 1)) nP p i s) : ℝ) +
            (outwardSign l : ℝ) * (val (normalDof (P + rep * (2 ^ M - 1)) nP q l (P + rep * (2 ^ M - 1) - 1 - s)) : ℝ) = 0 := by
          exact_mod_cast flux
        rw [this, zero_smul]) k s hs
    simp only [part]
    rw [smul_comm _ (1 / 2 ^ k : ℝ), smul_comm _ (1 / 2 ^ k : ℝ), ← smul_add, m, smul_zero]
  obtain ⟨A', T1', h0, h1, f', h2, h3, h4⟩ := C64_divergence_complete near corner junk' junkM' solve' hs' P (M + k) nP rep hnP hP0 (by omega) hrep hrP hc t' ht' g' balance
  obtain rfl : T1' = T' := Option.some.inj (h1.symm.trans hT')
  refine ⟨f', h2, h3, ?_⟩
  intro a b ha hb hab s s' hss d hd
  obtain ⟨p1, p2, p3, px, py, lx, ly, sp⟩ := nested near corner nP M k hnP t t' ht ht' a b ha hb hab
  obtain ⟨q1, q2⟩ := sp s s' hss
  obtain ⟨i, hi, rfl⟩ : ∃ i, i < 4 ∧ d = normalComponent i := by
    rcases (show d = 0 ∨ d = 1 by omega) with rfl | rfl
    · exact ⟨1, by omega, by simp [normalComponent]⟩
    · exact ⟨0, by omega, by simp [normalComponent]⟩
  rw [h4, discreteFunction_mul A G T1 f c3 trips col val c5,
    normal_value near corner junk junkM solve hs P M nP rep hnP hP0 (by omega) hrep hrP t ht A c1 a ha γ s i,
    normal_value near corner junk' junkM' solve' hs' P (M + k) nP rep hnP hP0 (by omega) hrep hrP t' ht' A' h0 b hb g' s' i, px, py]
  have v := value_refine (R := R) P (qx i) (qy i) rep M k _ _ hP (qx1 i) (qy1 i) (qxP i) (qyP i) hrep (qxr i) (qyr i) lx ly (fun c => γ (off M i + (a.1 * D M + c))) s s' q1 q2
  refine v.trans ?_
  congr 1
  refine elementValue_congr _ _ _ _ _ _ _ _ _ (fun c hc => ?_) _
  rw [dimD] at hc
  have := gEq i b.1 hb.1 c hc
  simp only [off, D] at this
  rw [this, p3]

/-- C79: the elements of the finer mesh exhaust the elements of the coarser one: every point (in the half-open squares of the coarse mesh) of every coarse
element is a point of a finer element in it, and every finer element lies in a coarse one. -/
theorem C79_cover (nP M M' : Nat) (hnP : 0 < nP) (hM : M ≤ M') (t t' : Mesh.Tree ℝ) (ht : initElementTree near corner nP M = some t)
    (ht' : initElementTree near corner nP M' = some t') :
    (∀ b, IsNode nP M' b → ∃ a, IsNode nP M a ∧ SubElement t t' M M' a b) ∧
    ∀ a, IsNode nP M a → ∀ s : ℝ × ℝ, 0 ≤ s.1 → s.1 < 1 → 0 ≤ s.2 → s.2 < 1 →
      ∃ b s', IsNode nP M' b ∧ SubElement t t' M M' a b ∧ SamePoint t t' M M' a b s s' ∧ 0 ≤ s'.1 ∧ s'.1 < 1 ∧ 0 ≤ s'.2 ∧ s'.2 < 1 := by
  obtain ⟨k, rfl⟩ := Nat.exists_eq_add_of_le hM
  obtain ⟨u, g1, g2, -⟩ := tree_facts (K := ℝ) near corner nP M hnP
  obtain rfl : u = t := Option.some.inj (g1.symm.trans ht)
  obtain ⟨u', g1', g2', -⟩ := tree_facts (K := ℝ) near corner nP (M + k) hnP
  obtain rfl : u' = t' := Option.some.inj (g1'.symm.trans ht')
  have key : ∀ a b, IsNode nP M a → IsNode nP (M + k) b → a.1 = b.1 → posX a.2 = posX b.2 / 2 ^ k → posY a.2 = posY b.2 / 2 ^ k → SubElement u u' M (M + k) a b := by
    intro a b ha hb h1 hx hy
    obtain ⟨-, -, p1, l1⟩ := g2 M le_rfl a (mem_leaves.2 ha)
    obtain ⟨-, -, p2, l2⟩ := g2' (M + k) le_rfl b (mem_leaves.2 hb)
    rw [ha.2.1] at l1
    rw [hb.2.1] at l2
    have sq : ∀ x y : Nat, x = y / 2 ^ k → (x : ℝ) / 2 ^ M ≤ (y : ℝ) / 2 ^ (M + k) ∧ (y : ℝ) / 2 ^ (M + k) + 1 / 2 ^ (M + k) ≤ (x : ℝ) / 2 ^ M + 1 / 2 ^ M := by
      intro x y e
      have d1 := Nat.div_add_mod y (2 ^ k)
      have d2 := Nat.mod_lt y (show 2 ^ k > 0 by positivity)
      rw [← e] at d1
      have n1 : (x : ℝ) * 2 ^ k ≤ y := by exact_mod_cast (by rw [Nat.mul_comm]; omega : x * 2 ^ k ≤ y)
      have n2 : (y : ℝ) + 1 ≤ (x + 1) * 2 ^ k := by
        exact_mod_cast (by rw [Nat.add_mul, Nat.one_mul, Nat.mul_comm x]; omega : y + 1 ≤ (x + 1) * 2 ^ k)
      have hM : (0 : ℝ) < 2 ^ M := by positivity
      have hk : (0 : ℝ) < 2 ^ k := by positivity
      rw [pow_add, ← add_div, ← add_div, div_le_div_iff₀ hM (by positivity), div_le_div_iff₀ (by positivity) hM]
      constructor <;> nlinarith
    refine ⟨by rw [p1, p2, h1], ?_⟩
    rw [l1, l2]
    exact ⟨(sq _ _ hx).1, (sq _ _ hx).2, (sq _ _ hy).1, (sq _ _ hy).2⟩
  constructor
  · intro b hb
    have drop : ∀ (k : Nat) (l : List Nat), (∀ x ∈ l, x < 4) → k ≤ l.length → posX (l.drop k) = posX l / 2 ^ k ∧ posY (l.drop k) = posY l / 2 ^ k := by
      intro k
      induction k with
      | zero => intro l _ _; simp
      | succ k ih =>
        intro l h4 hl
        cases l with
        | nil => simp at hl
        | cons i l =>
          obtain ⟨i1, i2⟩ := ih l (fun x hx => h4 x (List.mem_cons_of_mem _ hx)) (by simpa using hl)
          rw [List.drop_succ_cons, i1, i2, pow_succ', ← Nat.div_div_eq_div_mul, ← Nat.div_div_eq_div_mul]
          constructor
          · congr 1
            rw [posX]; split_ifs <;> omega
          · congr 1
            rw [posY]; split_ifs <;> omega
    have hlen : b.2.length = M + k := hb.2.1
    have ha : IsNode nP M (b.1, b.2.drop k) := ⟨hb.1, by simp [hlen], fun x hx => hb.2.2 x (List.mem_of_mem_drop hx)⟩
    obtain ⟨d1, d2⟩ := drop k b.2 hb.2.2 (by omega)
    exact ⟨_, ha, key _ b ha hb rfl d1 d2⟩
  · intro a ha s s0 s1 s2 s3
    have pa := pos_lt a.2
    rw [ha.2.1] at pa
    have loc : ∀ (x : Nat) (s : ℝ), x < 2 ^ M → 0 ≤ s → s < 1 → ∃ (y : Nat) (s' : ℝ), y < 2 ^ (M + k) ∧ x = y / 2 ^ k ∧ 0 ≤ s' ∧ s' < 1 ∧
        (x : ℝ) / 2 ^ M + s / 2 ^ M = (y : ℝ) / 2 ^ (M + k) + s' / 2 ^ (M + k) := by
      intro x s hx h0 h1
      have hk : (0 : ℝ) < 2 ^ k := by positivity
      have hs : 0 ≤ s * 2 ^ k := by positivity
      have hfl : ⌊s * 2 ^ k⌋₊ < 2 ^ k := by
        rw [Nat.floor_lt hs]; push_cast; nlinarith
      have e : (x * 2 ^ k + ⌊s * 2 ^ k⌋₊) / 2 ^ k = x := (patch_digits hfl).1
      refine ⟨x * 2 ^ k + ⌊s * 2 ^ k⌋₊, s * 2 ^ k - ⌊s * 2 ^ k⌋₊, ?_, e.symm, ?_, ?_, ?_⟩
      · have : (x + 1) * 2 ^ k ≤ 2 ^ M * 2 ^ k := Nat.mul_le_mul_right _ hx
        rw [Nat.add_mul, Nat.one_mul, ← pow_add] at this
        omega
      · linarith [Nat.floor_le hs]
      · linarith [Nat.lt_floor_add_one (s * (2 : ℝ) ^ k)]
      · rw [pow_add]; push_cast; field_simp; ring
    obtain ⟨x, s1', hx, ex, x0, x1, xe⟩ := loc (posX a.2) s.1 pa.1 s0 s1
    obtain ⟨y, s2', hy, ey, y0, y1, ye⟩ := loc (posY a.2) s.2 pa.2 s2 s3
    obtain ⟨l, hl, l4, lx, ly⟩ := Refinement.exists_path (M + k) x y hx hy
    have hb : IsNode nP (M + k) (a.1, l) := ⟨ha.1, hl, l4⟩
    refine ⟨(a.1, l), (s1', s2'), hb, key a _ ha hb rfl (by rw [lx]; exact ex) (by rw [ly]; exact ey), ?_, x0, x1, y0, y1⟩
    obtain ⟨-, -, -, l1⟩ := g2 M le_rfl a (mem_leaves.2 ha)
    obtain ⟨-, -, -, l2⟩ := g2' (M + k) le_rfl (a.1, l) (mem_leaves.2 hb)
    rw [ha.2.1] at l1
    rw [hl, lx, ly] at l2
    unfold SamePoint
    rw [l1, l2]
    exact ⟨xe, ye⟩

/-! ### the hypotheses can be met -/

/-- A criterion for the existence of continuous spaces on the cube that can be evaluated. -/
theorem Refinement.cube_cont (junk : Nat → ℝ) (junkM : Nat → Nat → ℝ) (P M rep : Nat) (hP0 : 0 < P) (hP : P ≤ 19) (hrep : 1 ≤ rep) (hrP : rep ≤ P)
    (t : Mesh.Tree ℝ) (ht : initElementTree (fun a b : Nat => a == b) cubeCorner 6 M = some t)
    (hx : ((initElementTree (fun a b : Nat => a == b) cubeCorner 6 M : Option (Mesh.Tree ℝ)).bind fun t =>
      (identifyCont (oneDDim P rep M) (6 * (oneDDim P rep M * oneDDim P rep M)) (patchTopologyInfo t)).map fun st =>
        (st.out.zip (st.out.tail ++ [⟨[], 1⟩])).all fun x => decide (x.1.dofs ≠ []) || decide (x.2.dofs ≠ [])) = some true) :
    ∃ T, transformationCont junk junkM solver t P M 6 rep = some T := by
  obtain ⟨st, h1, h2⟩ := C64_continuous_exists _ _ junk junkM solver solver_solves P M 6 rep (by norm_num) hP0 hP hrep hrP
    cube_conforming cube_oriented t ht
  rw [h2]
  rw [ht, Option.bind_some, h1, Option.map_some, Option.some_inj] at hx
  intro k d hk hd
  have hk' : k < st.out.length := (List.getElem?_eq_some_iff.1 hk).1
  have hz : (st.out.zip (st.out.tail ++ [⟨[], 1⟩]))[k]? = some (d, (st.out[k + 1]?).getD ⟨[], 1⟩) := by
    rw [List.getElem?_zip_eq_some]
    refine ⟨hk, ?_⟩
    simp only
    rw [List.getElem?_append]
    split
    · rename_i h
      rw [List.getElem?_tail]
      rw [List.length_tail] at h
      rw [List.getElem?_eq_getElem (by omega)]
      rfl
    · rename_i h
      rw [List.length_tail] at h ⊢
      rw [List.getElem?_eq_none (l := st.out) (by omega), show k - (st.out.length - 1) = 0 by omega]
      rfl
  have hall := List.all_eq_true.1 hx _ (List.mem_of_getElem? hz)
  simp only [hd, ne_eq, not_true_eq_false, decide_false, Bool.false_or, decide_eq_true_eq] at hall
  cases hs : st.out[k + 1]? with
  | none => rw [hs] at hall; exact absurd rfl hall
  | some e => rw [hs] at hall; exact ⟨e, rfl, hall⟩

/-- Continuous bilinear splines on the surface of a cube: the matrices of the levels 0 and 1 exist. -/
example (junk : Nat → ℝ) (junkM : Nat → Nat → ℝ) : ∃ t t' : Mesh.Tree ℝ, initElementTree (fun a b : Nat => a == b) cubeCorner 6 0 = some t ∧
    initElementTree (fun a b : Nat => a == b) cubeCorner 6 1 = some t' ∧
    (∃ T, transformationCont junk junkM solver t 1 0 6 1 = some T) ∧ ∃ T', transformationCont junk junkM solver t' 1 1 6 1 = some T' := by
  obtain ⟨t, ht, -⟩ := tree_facts (K := ℝ) (fun a b : Nat => a == b) cubeCorner 6 0 (by norm_num)
  obtain ⟨t', ht', -⟩ := tree_facts (K := ℝ) (fun a b : Nat => a == b) cubeCorner 6 1 (by norm_num)
  exact ⟨t, t', ht, ht', Refinement.cube_cont junk junkM 1 0 1 (by norm_num) (by norm_num) (by norm_num) (by norm_num) t ht (by decide +kernel),
    Refinement.cube_cont junk junkM 1 1 1 (by norm_num) (by norm_num) (by norm_num) (by norm_num) t' ht' (by decide +kernel)⟩

/-- Quadratic splines in the divergence conforming and discontinuous spaces of the levels 1 and 3; `C79_cover` gives the pairs of elements. -/
example (junk : Nat → ℝ) (junkM : Nat → Nat → ℝ) : ∃ t t' : Mesh.Tree ℝ, initElementTree (fun a b : Nat => a == b) cubeCorner 6 1 = some t ∧
    initElementTree (fun a b : Nat => a == b) cubeCorner 6 3 = some t' ∧
    (∃ T, transformationDiv junk junkM solver t 2 1 6 1 = some T) ∧ (∃ T', transformationDiv junk junkM solver t' 2 3 6 1 = some T') ∧
    (∃ T, transformationDisc junk junkM solver t 2 1 6 1 = some T) ∧ (∃ T', transformationDisc junk junkM solver t' 2 3 6 1 = some T') ∧
    ∃ a b, IsNode 6 1 a ∧ IsNode 6 3 b ∧ SubElement t t' 1 3 a b := by
  obtain ⟨t, ht, -⟩ := tree_facts (K := ℝ) (fun a b : Nat => a == b) cubeCorner 6 1 (by norm_num)
  obtain ⟨t', ht', -⟩ := tree_facts (K := ℝ) (fun a b : Nat => a == b) cubeCorner 6 3 (by norm_num)
  have e1 := C64_divergence (R := ℝ) _ _ junk junkM solver solver_solves 2 1 6 1 (by norm_num) (by norm_num) (by norm_num) (by norm_num) (by norm_num)
    cube_conforming cube_oriented t ht
  have e2 := C64_divergence (R := ℝ) _ _ junk junkM solver solver_solves 2 3 6 1 (by norm_num) (by norm_num) (by norm_num) (by norm_num) (by norm_num)
    cube_conforming cube_oriented t' ht'
  obtain ⟨-, T1, -, e3, -⟩ := C64_discontinuous _ _ junk junkM solver solver_solves 2 1 6 1 (by norm_num) (by norm_num) (by norm_num) t ht
  obtain ⟨-, T2, -, e4, -⟩ := C64_discontinuous _ _ junk junkM solver solver_solves 2 3 6 1 (by norm_num) (by norm_num) (by norm_num) t' ht'
  have hb : IsNode 6 3 (2, [1, 3, 0]) := ⟨by norm_num, rfl, by decide⟩
  obtain ⟨a, ha, hab⟩ := (C79_cover _ cubeCorner 6 1 3 (by norm_num) (by norm_num) t t' ht ht').1 _ hb
  exact ⟨t, t', ht, ht', ⟨_, e1.choose_spec.1⟩, ⟨_, e2.choose_spec.1⟩, ⟨_, e3⟩, ⟨_, e4⟩, a, _, ha, hb, hab⟩

end Bembel.Props
