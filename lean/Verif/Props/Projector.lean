import Verif.Lemmas.ProjectorAsm
/-!
# C34: the projector

`solve` is the linear solver, `junk`, `junkM` the contents of uninitialised memory.
-/

open Finset

namespace Bembel.Props
open Spec Spl Basis Mesh Projector

variable {V : Type} (near : V → V → Bool) (corner : Nat → Nat → V)

/-- What `makeLocalProjectionTriplets` returns. -/
theorem info_eq (junk : Nat → ℝ) (junkM : Nat → Nat → ℝ) (solve) (hs : SolvesSystems solve) (P M nP qx qy rep r : Nat) (hnP : 0 < nP) (hP : P ≤ 19)
    (hqx : 1 ≤ qx) (hqy : 1 ≤ qy) (hx : qx = P + 1 ∨ qx = P) (hy : qy = P + 1 ∨ qy = P) (hmax : max qx qy = P + 1) (hr : 1 ≤ r)
    (hrep : r = if P + 1 ≤ rep then min qx qy else rep) (t : Mesh.Tree ℝ) (ht : initElementTree near corner nP M = some t) :
    ∃ info, makeLocalProjectionTriplets junk junkM solve t P M nP qx qy rep = some info ∧
      info.numC = nP * (splineDim qx (2 ^ M) r * splineDim qy (2 ^ M) r) ∧ info.numDc = nP * 4 ^ M * ((P + 1) * (P + 1)) ∧
      (∀ x ∈ info.trips, x.1 < info.numDc ∧ x.2.1 < info.numC) ∧
      info.trips.length = nP * ∑ X ∈ range (2 ^ M), ∑ Y ∈ range (2 ^ M), cnt P qx qy (2 ^ M) r X Y ∧
      ∀ a, IsNode nP M a → ∀ pa c i, i < (P + 1) * (P + 1) → c < splineDim qx (2 ^ M) r * splineDim qy (2 ^ M) r →
        (info.trips.map fun x => if x.1 = t.id a * ((P + 1) * (P + 1)) + i ∧
          x.2.1 = pa * (splineDim qx (2 ^ M) r * splineDim qy (2 ^ M) r) + c then x.2.2 else 0).sum =
        if t.patch a = pa then cut (coef2 P qx qy (2 ^ M) r (posX a.2) (posY a.2) (c % splineDim qx (2 ^ M) r) (c / splineDim qx (2 ^ M) r) i)
        else 0 := by
  obtain ⟨t', h1, h2, h3, h4, h5, h6, h7⟩ := tree_facts (K := ℝ) near corner nP M hnP
  obtain rfl : t' = t := Option.some.inj (h1.symm.trans ht)
  have hels := elements_eq t' nP M hnP h3 h6
  have hn : 0 < 2 ^ M := by positivity
  have good : ∀ a ∈ leaves nP M, t'.id a = pathId a.1 a.2 ∧ t'.patch a = a.1 ∧ t'.level a = M ∧
      t'.llc a = ((posX a.2 : ℝ) / 2 ^ M, (posY a.2 : ℝ) / 2 ^ M) := by
    intro a ha
    obtain ⟨g1, g2, g3, g4⟩ := h2 M le_rfl a ha
    have hm := mem_leaves.1 ha
    rw [hm.2.1] at g4
    exact ⟨g1, g3, by rw [g2, hm.2.1], g4⟩
  have zip : ∀ e ∈ (leaves nP M).zipIdx, e.1 ∈ leaves nP M ∧ t'.id e.1 = e.2 ∧ e.2 < nP * 4 ^ M := by
    rintro ⟨a, k⟩ he
    have hk : (leaves nP M)[k]? = some a := by
      have := List.mem_zipIdx_iff_getElem?.1 he
      simpa using this
    have ha : a ∈ leaves nP M := List.mem_of_getElem? hk
    have hlt : k < nP * 4 ^ M := by
      have := (List.getElem?_eq_some_iff.1 hk).1
      rwa [leaves_length] at this
    have e := congrArg (fun l : List Nat => l[k]?) (leaves_ids nP M)
    simp only [List.getElem?_map, hk, Option.map_some] at e
    rw [List.getElem?_range hlt, Option.some.injEq] at e
    exact ⟨ha, by rw [(good a ha).1, e], hlt⟩
  let parts := (leaves nP M).zipIdx.map fun e => triplets P qx qy (2 ^ M) r e.2 (t'.patch e.1) (posX e.1.2) (posY e.1.2)
  refine ⟨⟨parts.flatten, splineDim qx (2 ^ M) r * splineDim qy (2 ^ M) r * nP, (P + 1) * (P + 1) * 2 ^ M * 2 ^ M * nP⟩, ?_, ?_, ?_, ?_, ?_, ?_⟩
  · unfold makeLocalProjectionTriplets
    simp only [hmax]
    rw [if_neg (by simp), if_neg (by omega), ← hrep]
    rw [knots_eq qx (2 ^ M) r hn hr, knots_eq qy (2 ^ M) r hn hr]
    simp only [List.length_map, List.length_range, Nat.add_sub_cancel, hels]
    rw [if_neg (by simp [makeInterpolationMask])]
    simp only [Option.bind_eq_bind, Option.bind_some]
    rw [mapM_eq_some_map _ (fun e => triplets P qx qy (2 ^ M) r e.2 (t'.patch e.1) (posX e.1.2) (posY e.1.2))]
    · rfl
    · intro e he
      obtain ⟨z1, z2, z3⟩ := zip e he
      obtain ⟨g1, g2, g3, g4⟩ := good e.1 z1
      have hp := pos_lt e.1.2
      rw [(mem_leaves.1 z1).2.1] at hp
      exact elementTriplets_eq junk junkM solve hs t' e.1 P qx qy M r _ _ e.2 hP hqx hqy hx hy hr hp.1 hp.2 g4 g3
  · exact Nat.mul_comm _ _
  · show (P + 1) * (P + 1) * 2 ^ M * 2 ^ M * nP = _
    rw [show (4 : Nat) ^ M = 2 ^ M * 2 ^ M by rw [← mul_pow]; norm_num]; ring
  · intro x hx
    obtain ⟨l, hl, hx⟩ := List.mem_flatten.1 hx
    obtain ⟨e, he, rfl⟩ := List.mem_map.1 hl
    obtain ⟨z1, z2, z3⟩ := zip e he
    have := triplets_mem P qx qy (2 ^ M) r e.2 (t'.patch e.1) (posX e.1.2) (posY e.1.2) (nP * 4 ^ M) nP z3
      (by rw [(good e.1 z1).2.1]; exact (mem_leaves.1 z1).1) x hx
    refine ⟨?_, this.2⟩
    show x.1 < (P + 1) * (P + 1) * 2 ^ M * 2 ^ M * nP
    rw [show (P + 1) * (P + 1) * 2 ^ M * 2 ^ M * nP = (P + 1) * (P + 1) * (nP * 4 ^ M) by
      rw [show (4 : Nat) ^ M = 2 ^ M * 2 ^ M by rw [← mul_pow]; norm_num]; ring]
    exact this.1
  · show parts.flatten.length = _
    rw [length_eq_sum, list_sum_flatten, List.map_map]
    have e : (leaves nP M).zipIdx.map ((fun l => (l.map fun _ => 1).sum) ∘ fun e : Addr × Nat =>
        triplets P qx qy (2 ^ M) r e.2 (t'.patch e.1) (posX e.1.2) (posY e.1.2)) =
        ((leaves nP M).zipIdx.map Prod.fst).map fun a => cnt P qx qy (2 ^ M) r (posX a.2) (posY a.2) := by
      rw [List.map_map]
      refine List.map_congr_left fun e _ => ?_
      rw [Function.comp_apply, ← length_eq_sum, triplets_length]; rfl
    rw [e, List.zipIdx_map_fst, sum_leaves]
  · intro a ha pa c i hi hc
    classical
    have hal : a ∈ leaves nP M := mem_leaves.2 ha
    obtain ⟨g1, g2, g3, g4⟩ := good a hal
    show (parts.flatten.map _).sum = _
    rw [list_sum_flatten, List.map_map]
    have e : ∀ e ∈ (leaves nP M).zipIdx, ((fun l => (l.map fun x : Nat × Nat × ℝ => if x.1 = t'.id a * ((P + 1) * (P + 1)) + i ∧
          x.2.1 = pa * (splineDim qx (2 ^ M) r * splineDim qy (2 ^ M) r) + c then x.2.2 else 0).sum) ∘ fun e : Addr × Nat =>
        triplets P qx qy (2 ^ M) r e.2 (t'.patch e.1) (posX e.1.2) (posY e.1.2)) e =
        if e.2 = t'.id a ∧ t'.patch e.1 = pa then
          cut (coef2 P qx qy (2 ^ M) r (posX e.1.2) (posY e.1.2) (c % splineDim qx (2 ^ M) r) (c / splineDim qx (2 ^ M) r) i) else 0 :=
      fun e _ => triplets_sum P qx qy (2 ^ M) r e.2 _ _ _ _ pa c i hqx hqy hx hy hi hc
    rw [List.map_congr_left e]
    have idinj : ∀ b ∈ leaves nP M, t'.id b = t'.id a → b = a := by
      intro b hb h
      rw [g1, (good b hb).1] at h
      have hm := mem_leaves.1 hb
      have := congrArg (fun l : List Nat => l.Nodup) (leaves_ids nP M)
      have nd : ((leaves nP M).map fun a => pathId a.1 a.2).Nodup := by rw [leaves_ids]; exact List.nodup_range
      exact List.inj_on_of_nodup_map nd hb hal h
    have hmem : (a, t'.id a) ∈ (leaves nP M).zipIdx := by
      obtain ⟨k, hk⟩ := List.getElem?_of_mem hal
      have : (a, k) ∈ (leaves nP M).zipIdx := List.mem_zipIdx_iff_getElem?.2 (by simpa using hk)
      have := zip (a, k) this
      rw [this.2.1]; assumption
    rw [list_sum_single _ ?_ _ (a, t'.id a) ?_, if_pos hmem]
    · simp
    · have : ((leaves nP M).zipIdx.map Prod.fst).Nodup := by rw [List.zipIdx_map_fst]; exact leaves_nodup nP M
      exact List.Nodup.of_map _ this
    · rintro ⟨b, k⟩ hb hne
      rw [if_neg]
      rintro ⟨h1, _⟩
      obtain ⟨z1, z2, z3⟩ := zip _ hb
      simp only [] at h1 z2 z1
      obtain rfl := idinj b z1 (by rw [z2, h1])
      exact hne (by rw [h1])

theorem shape_sum (P : Nat) (s : ℝ × ℝ) : ∑ i ∈ range ((P + 1) * (P + 1)), shape P i s = 1 := by
  rw [sum_pairs]
  have : ∀ y ∈ range (P + 1), ∑ x ∈ range (P + 1), shape P (y * (P + 1) + x) s = bern P y s.2 := by
    intro y _
    rw [← one_mul (bern P y s.2), ← sum_bern P s.1, sum_mul]
    refine sum_congr rfl fun x hx => ?_
    rw [shape, (divmod_pair (mem_range.1 hx)).1, (divmod_pair (mem_range.1 hx)).2]
  rw [sum_congr rfl this, sum_bern]

theorem cut_error (v : ℝ) : |cut v - v| ≤ 1 / 10000 := by
  unfold cut
  split_ifs with h
  · simp
  · rw [zero_sub, abs_neg]; exact not_lt.1 h

theorem cut_exact (p qx qy n r X Y dx dy i : Nat) (hp : p ≤ 4) (hqx : 1 ≤ qx) (hqy : 1 ≤ qy) (hx : qx = p + 1 ∨ qx = p) (hy : qy = p + 1 ∨ qy = p)
    (hr : 1 ≤ r) (hX : X < n) (hY : Y < n) (hi : i < (p + 1) * (p + 1)) :
    cut (coef2 p qx qy n r X Y dx dy i) = coef2 p qx qy n r X Y dx dy i := by
  have d1 : i % (p + 1) ≤ p := by have := Nat.mod_lt i (show 0 < p + 1 by omega); omega
  have d2 : i / (p + 1) ≤ p := by have := (Nat.div_lt_iff_lt_mul (show 0 < p + 1 by omega)).2 hi; omega
  have g1 := coef_gap p qx n r X dx (i % (p + 1)) hqx hx hr hX d1
  have g2 := coef_gap p qy n r Y dy (i / (p + 1)) hqy hy hr hY d2
  have hf : (0 : ℝ) < 1 / (p.factorial : ℝ) := by positivity
  have g := gap_mul hf.le hf.le g1 g2
  unfold coef2 cut
  rcases g with g | g
  · rw [g]; simp
  · rw [if_pos]
    have hb : (1 : ℝ) / 24 ≤ 1 / (p.factorial : ℝ) := by
      refine one_div_le_one_div_of_le (by positivity) ?_
      have : p.factorial ≤ Nat.factorial 4 := Nat.factorial_le hp
      exact_mod_cast this
    have := le_abs_self (coef p qx n r X dx (i % (p + 1)) * coef p qy n r Y dy (i / (p + 1)))
    nlinarith

/-- The spline in terms of the Bernstein coefficients. -/
theorem patchSpline_bern (P M qx qy r X Y c : Nat) (hqx : 1 ≤ qx) (hqy : 1 ≤ qy) (hx : qx = P + 1 ∨ qx = P) (hy : qy = P + 1 ∨ qy = P)
    (hr : 1 ≤ r) (hX : X < 2 ^ M) (hY : Y < 2 ^ M) (s : ℝ × ℝ) (h1 : 0 ≤ s.1) (h2 : s.1 < 1) (h3 : 0 ≤ s.2) (h4 : s.2 < 1) :
    patchSpline qx qy (2 ^ M) r c ((X : ℝ) / 2 ^ M + s.1 / 2 ^ M, (Y : ℝ) / 2 ^ M + s.2 / 2 ^ M) =
      ∑ i ∈ range ((P + 1) * (P + 1)), coef2 P qx qy (2 ^ M) r X Y (c % splineDim qx (2 ^ M) r) (c / splineDim qx (2 ^ M) r) i * shape P i s := by
  have hc : ((2 ^ M : Nat) : ℝ) = 2 ^ M := by push_cast; rfl
  unfold patchSpline
  simp only []
  rw [← add_div, ← add_div, ← hc, spline_bern P qx (2 ^ M) r X _ hqx hx hr hX s.1 h1 h2, spline_bern P qy (2 ^ M) r Y _ hqy hy hr hY s.2 h3 h4,
    sum_pairs, sum_mul_sum, sum_comm]
  refine sum_congr rfl fun jx hjx => sum_congr rfl fun jy hjy => ?_
  have hjy := mem_range.1 hjy
  rw [coef2, shape, (divmod_pair hjy).1, (divmod_pair hjy).2]
  ring

/-- From the entries of the matrix to the splines. -/
theorem containsSplines_of (T : EMat ℝ) (P M nP qx qy r ro co : Nat) (hnP : 0 < nP) (hqx : 1 ≤ qx) (hqy : 1 ≤ qy)
    (hx : qx = P + 1 ∨ qx = P) (hy : qy = P + 1 ∨ qy = P) (hr : 1 ≤ r) (t : Mesh.Tree ℝ) (ht : initElementTree near corner nP M = some t)
    (h : ∀ a, IsNode nP M a → ∀ pa < nP, ∀ c i, i < (P + 1) * (P + 1) → c < splineDim qx (2 ^ M) r * splineDim qy (2 ^ M) r →
      T.at' (ro + (t.id a * ((P + 1) * (P + 1)) + i)) (co + (pa * (splineDim qx (2 ^ M) r * splineDim qy (2 ^ M) r) + c)) =
        if t.patch a = pa then cut (coef2 P qx qy (2 ^ M) r (posX a.2) (posY a.2) (c % splineDim qx (2 ^ M) r) (c / splineDim qx (2 ^ M) r) i)
        else 0) :
    ContainsSplines T t P M nP qx qy r ro co (1 / 10000) ∧ (P ≤ 4 → ContainsSplines T t P M nP qx qy r ro co 0) := by
  obtain ⟨t', h1, h2, h3, h4, h5, h6, h7⟩ := tree_facts (K := ℝ) near corner nP M hnP
  obtain rfl : t' = t := Option.some.inj (h1.symm.trans ht)
  have key : ∀ eps : ℝ, 0 ≤ eps → (∀ X Y dx dy i, X < 2 ^ M → Y < 2 ^ M → i < (P + 1) * (P + 1) →
      |cut (coef2 P qx qy (2 ^ M) r X Y dx dy i) - coef2 P qx qy (2 ^ M) r X Y dx dy i| ≤ eps) →
      ContainsSplines T t' P M nP qx qy r ro co eps := by
    intro eps heps hcut a ha pa hpa c hc s s1 s2 s3 s4
    obtain ⟨g1, g2, g3, g4⟩ := h2 M le_rfl a (mem_leaves.2 ha)
    rw [ha.2.1] at g4
    have hp := pos_lt a.2
    rw [ha.2.1] at hp
    rw [sum_congr rfl fun i hi => by rw [h a ha pa hpa c i (mem_range.1 hi) hc]]
    split_ifs with hpa'
    · rw [g4]
      simp only []
      rw [patchSpline_bern P M qx qy r _ _ c hqx hqy hx hy hr hp.1 hp.2 s s1 s2 s3 s4, ← sum_sub_distrib]
      refine (abs_sum_le_sum_abs _ _).trans ?_
      calc _ ≤ ∑ i ∈ range ((P + 1) * (P + 1)), eps * shape P i s := by
            refine sum_le_sum fun i hi => ?_
            have hsh : 0 ≤ shape P i s := mul_nonneg (bern_nonneg _ _ _ s1 s2.le) (bern_nonneg _ _ _ s3 s4.le)
            rw [← sub_mul, abs_mul, abs_of_nonneg hsh]
            exact mul_le_mul_of_nonneg_right (hcut _ _ _ _ i hp.1 hp.2 (mem_range.1 hi)) hsh
        _ = eps := by rw [← mul_sum, shape_sum, mul_one]
    · simpa using heps
  refine ⟨key _ (by norm_num) fun X Y dx dy i _ _ _ => cut_error _, fun hP => key 0 le_rfl fun X Y dx dy i hX hY hi => ?_⟩
  rw [cut_exact P qx qy (2 ^ M) r X Y dx dy i hP hqx hqy hx hy hr hX hY hi]
  simp

/-- The matrix for discontinuous spaces. -/
theorem disc_matrix (junk : Nat → ℝ) (junkM : Nat → Nat → ℝ) (solve) (hs : SolvesSystems solve) (P M nP rep : Nat) (hnP : 0 < nP)
    (hP : P ≤ 19) (hrep : 1 ≤ rep) (t : Mesh.Tree ℝ) (ht : initElementTree near corner nP M = some t) :
    ∃ T, makeMatrixDisc junk junkM solve t P M nP rep = some T ∧
      T.rows = nP * 4 ^ M * ((P + 1) * (P + 1)) ∧
      T.cols = nP * ((P + 1 + (2 ^ M - 1) * min rep (P + 1)) * (P + 1 + (2 ^ M - 1) * min rep (P + 1))) ∧
      ∀ a, IsNode nP M a → ∀ pa c i, i < (P + 1) * (P + 1) →
        c < splineDim (P + 1) (2 ^ M) (min rep (P + 1)) * splineDim (P + 1) (2 ^ M) (min rep (P + 1)) →
        T.at' (t.id a * ((P + 1) * (P + 1)) + i)
          (pa * (splineDim (P + 1) (2 ^ M) (min rep (P + 1)) * splineDim (P + 1) (2 ^ M) (min rep (P + 1))) + c) =
        if t.patch a = pa then cut (coef2 P (P + 1) (P + 1) (2 ^ M) (min rep (P + 1)) (posX a.2) (posY a.2)
          (c % splineDim (P + 1) (2 ^ M) (min rep (P + 1))) (c / splineDim (P + 1) (2 ^ M) (min rep (P + 1))) i)
        else 0 := by
  have hr : 1 ≤ min rep (P + 1) := by omega
  obtain ⟨info, e, c1, c2, c3, _, c5⟩ := info_eq near corner junk junkM solve hs P M nP (P + 1) (P + 1) rep (min rep (P + 1)) hnP hP (by omega) (by omega)
    (Or.inl rfl) (Or.inl rfl) (max_self _) hr (by split_ifs <;> omega) t ht
  refine ⟨⟨info.numDc, info.numC, fun i j => (info.trips.map fun x => if x.1 = i ∧ x.2.1 = j then x.2.2 else 0).sum⟩, ?_, c2, c1, ?_⟩
  · unfold makeMatrixDisc
    rw [e]
    simp only [Option.bind_eq_bind, Option.bind_some, setFromTriplets]
    rw [if_pos]
    rw [List.all_eq_true]
    intro x hx
    simp [c3 x hx]
  · intro a ha pa c i hi hc
    exact c5 a ha pa c i hi hc

/-- C34 (discontinuous spaces): the projection matrix exists, has one row per shape function and element and one column per B-spline, and its
columns are the tensor product B-splines of degree `P` with knots repeated `rep` times on the patches: exactly for `P ≤ 4`, up to `10^-4`
for all degrees. -/
theorem C34_discontinuous (junk : Nat → ℝ) (junkM : Nat → Nat → ℝ) (solve) (hs : SolvesSystems solve) (P M nP rep : Nat) (hnP : 0 < nP)
    (hP : P ≤ 19) (hrep : 1 ≤ rep) (t : Mesh.Tree ℝ) (ht : initElementTree near corner nP M = some t) :
    ∃ T, makeMatrixDisc junk junkM solve t P M nP rep = some T ∧
      T.rows = nP * 4 ^ M * ((P + 1) * (P + 1)) ∧
      T.cols = nP * ((P + 1 + (2 ^ M - 1) * min rep (P + 1)) * (P + 1 + (2 ^ M - 1) * min rep (P + 1))) ∧
      ContainsSplines T t P M nP (P + 1) (P + 1) (min rep (P + 1)) 0 0 (1 / 10000) ∧
      (P ≤ 4 → ContainsSplines T t P M nP (P + 1) (P + 1) (min rep (P + 1)) 0 0 0) := by
  obtain ⟨T, h1, h2, h3, h4⟩ := disc_matrix near corner junk junkM solve hs P M nP rep hnP hP hrep t ht
  refine ⟨T, h1, h2, h3, containsSplines_of near corner _ P M nP (P + 1) (P + 1) _ 0 0 hnP (by omega) (by omega) (Or.inl rfl) (Or.inl rfl)
    (by omega) t ht ?_⟩
  intro a ha pa _ c i hi hc
  rw [Nat.zero_add, Nat.zero_add]
  exact h4 a ha pa c i hi hc

/-- C34 (continuous spaces): the same, for positive degree and at most `P` equal knots. -/
theorem C34_continuous (junk : Nat → ℝ) (junkM : Nat → Nat → ℝ) (solve) (hs : SolvesSystems solve) (P M nP rep : Nat) (hnP : 0 < nP)
    (hP0 : 0 < P) (hP : P ≤ 19) (hrep : 1 ≤ rep) (hrP : rep ≤ P) (t : Mesh.Tree ℝ) (ht : initElementTree near corner nP M = some t) :
    ∃ T, makeMatrixCont junk junkM solve t P M nP rep = some T ∧
      T.rows = nP * 4 ^ M * ((P + 1) * (P + 1)) ∧
      T.cols = nP * ((P + 1 + (2 ^ M - 1) * rep) * (P + 1 + (2 ^ M - 1) * rep)) ∧
      ContainsSplines T t P M nP (P + 1) (P + 1) rep 0 0 (1 / 10000) ∧ (P ≤ 4 → ContainsSplines T t P M nP (P + 1) (P + 1) rep 0 0 0) := by
  obtain ⟨T, h⟩ := C34_discontinuous near corner junk junkM solve hs P M nP rep hnP hP hrep t ht
  rw [show min rep (P + 1) = rep by omega] at h
  exact ⟨T, by rw [makeMatrixCont, if_pos ⟨hP0, hrP⟩]; exact h.1, h.2⟩

theorem sum_append_shift (l1 l2 : List (Nat × Nat × ℝ)) (R C i j : Nat) :
    (((l1 ++ l2.map fun x => (x.1 + R, x.2.1 + C, x.2.2))).map fun x => if x.1 = i ∧ x.2.1 = j then x.2.2 else 0).sum =
      (l1.map fun x => if x.1 = i ∧ x.2.1 = j then x.2.2 else 0).sum +
      (l2.map fun x => if x.1 + R = i ∧ x.2.1 + C = j then x.2.2 else 0).sum := by
  rw [List.map_append, List.sum_append, List.map_map]; rfl

theorem list_sum_zero {α : Type} (l : List α) (f : α → ℝ) (h : ∀ a ∈ l, f a = 0) : (l.map f).sum = 0 := by
  induction l with
  | nil => rfl
  | cons a l ih => rw [List.map_cons, List.sum_cons, h a List.mem_cons_self, ih fun b hb => h b (List.mem_cons_of_mem _ hb), add_zero]

/-- The entries of the matrix for divergence conforming spaces. -/
theorem div_matrix (junk : Nat → ℝ) (junkM : Nat → Nat → ℝ) (solve) (hs : SolvesSystems solve) (P M nP rep : Nat) (hnP : 0 < nP)
    (hP0 : 0 < P) (hP : P ≤ 19) (hrep : 1 ≤ rep) (hrP : rep ≤ P) (t : Mesh.Tree ℝ) (ht : initElementTree near corner nP M = some t) :
    ∃ T, makeMatrixDiv junk junkM solve t P M nP rep = some T ∧
      let nR := nP * 4 ^ M * ((P + 1) * (P + 1))
      let nC := nP * ((P + 1 + (2 ^ M - 1) * rep) * (P + (2 ^ M - 1) * rep))
      T.rows = 2 * nR ∧ T.cols = 2 * nC ∧
      (∀ i j, i < nR ∧ nC ≤ j ∨ nR ≤ i ∧ j < nC → T.at' i j = 0) ∧
      (∀ a, IsNode nP M a → ∀ pa < nP, ∀ c i, i < (P + 1) * (P + 1) → c < splineDim (P + 1) (2 ^ M) rep * splineDim P (2 ^ M) rep →
        T.at' (0 + (t.id a * ((P + 1) * (P + 1)) + i)) (0 + (pa * (splineDim (P + 1) (2 ^ M) rep * splineDim P (2 ^ M) rep) + c)) =
        if t.patch a = pa then cut (coef2 P (P + 1) P (2 ^ M) rep (posX a.2) (posY a.2)
          (c % splineDim (P + 1) (2 ^ M) rep) (c / splineDim (P + 1) (2 ^ M) rep) i) else 0) ∧
      (∀ a, IsNode nP M a → ∀ pa < nP, ∀ c i, i < (P + 1) * (P + 1) → c < splineDim P (2 ^ M) rep * splineDim (P + 1) (2 ^ M) rep →
        T.at' (nR + (t.id a * ((P + 1) * (P + 1)) + i)) (nC + (pa * (splineDim P (2 ^ M) rep * splineDim (P + 1) (2 ^ M) rep) + c)) =
        if t.patch a = pa then cut (coef2 P P (P + 1) (2 ^ M) rep (posX a.2) (posY a.2)
          (c % splineDim P (2 ^ M) rep) (c / splineDim P (2 ^ M) rep) i) else 0) := by
  obtain ⟨I1, e1, a1, a2, a3, a4, a5⟩ := info_eq near corner junk junkM solve hs P M nP (P + 1) P rep rep hnP hP (by omega) hP0
    (Or.inl rfl) (Or.inr rfl) (by omega) hrep (by split_ifs <;> omega) t ht
  obtain ⟨I2, e2, b1, b2, b3, b4, b5⟩ := info_eq near corner junk junkM solve hs P M nP P (P + 1) rep rep hnP hP hP0 (by omega)
    (Or.inr rfl) (Or.inl rfl) (by omega) hrep (by split_ifs <;> omega) t ht
  have hnC : I2.numC = I1.numC := by rw [a1, b1]; ring
  have hnR : I2.numDc = I1.numDc := by rw [a2, b2]
  have hC : I1.numC = nP * ((P + 1 + (2 ^ M - 1) * rep) * (P + (2 ^ M - 1) * rep)) := a1
  have hlen : I1.trips.length = I2.trips.length := by
    rw [a4, b4]
    congr 1
    rw [sum_comm]
    exact sum_congr rfl fun Y _ => sum_congr rfl fun X _ => cnt_swap P (P + 1) P (2 ^ M) rep X Y
  let f : Nat → Nat → ℝ := fun i j => (((I1.trips ++ I2.trips.map fun x => (x.1 + I1.numDc, x.2.1 + I1.numC, x.2.2))).map
    fun x => if x.1 = i ∧ x.2.1 = j then x.2.2 else 0).sum
  have first : ∀ i j, i < I1.numDc ∨ j < I1.numC → f i j = (I1.trips.map fun x => if x.1 = i ∧ x.2.1 = j then x.2.2 else 0).sum := by
    intro i j h
    simp only [f]
    rw [sum_append_shift, list_sum_zero I2.trips, add_zero]
    intro x _
    rw [if_neg (by omega)]
  have second : ∀ i j, f (I1.numDc + i) (I1.numC + j) = (I2.trips.map fun x => if x.1 = i ∧ x.2.1 = j then x.2.2 else 0).sum := by
    intro i j
    simp only [f]
    rw [sum_append_shift, list_sum_zero I1.trips, zero_add]
    · congr 1
      refine List.map_congr_left fun x _ => if_congr ?_ rfl rfl
      omega
    · intro x hx
      have := a3 x hx
      rw [if_neg (by omega)]
  have a1' : ∀ pa < nP, ∀ c < splineDim (P + 1) (2 ^ M) rep * splineDim P (2 ^ M) rep,
      pa * (splineDim (P + 1) (2 ^ M) rep * splineDim P (2 ^ M) rep) + c < I1.numC := by
    intro pa hpa c hc
    rw [a1]
    have : (pa + 1) * (splineDim (P + 1) (2 ^ M) rep * splineDim P (2 ^ M) rep) ≤ nP * (splineDim (P + 1) (2 ^ M) rep * splineDim P (2 ^ M) rep) :=
      Nat.mul_le_mul_right _ hpa
    rw [Nat.add_mul, Nat.one_mul] at this
    omega
  refine ⟨⟨I1.numDc + I2.numDc, I1.numC + I2.numC, f⟩, ?_, ?_, ?_, ?_, ?_, ?_⟩
  · unfold makeMatrixDiv
    rw [if_pos ⟨hP0, hrP⟩, e1, e2]
    simp only [Option.bind_eq_bind, Option.bind_some]
    rw [if_neg (by rw [hlen]; simp)]
    unfold setFromTriplets
    rw [if_pos]
    rw [List.all_eq_true]
    intro x hx
    rcases List.mem_append.1 hx with hx | hx
    · have := a3 x hx
      simp only [Bool.and_eq_true, decide_eq_true_eq]; omega
    · obtain ⟨y, hy, rfl⟩ := List.mem_map.1 hx
      have := b3 y hy
      simp only [Bool.and_eq_true, decide_eq_true_eq]; omega
  · show I1.numDc + I2.numDc = _
    rw [hnR, a2]; ring
  · show I1.numC + I2.numC = _
    rw [hnC, hC]; ring
  · intro i j h
    rw [← hC, ← a2] at h
    show f i j = 0
    rw [first i j (by omega)]
    refine list_sum_zero _ _ fun x hx => ?_
    have := a3 x hx
    rw [if_neg (by omega)]
  · intro a ha pa hpa c i hi hc
    rw [Nat.zero_add, Nat.zero_add]
    show f _ _ = _
    rw [first _ _ (Or.inr (a1' pa hpa c hc))]
    exact a5 a ha pa c i hi hc
  · intro a ha pa _ c i hi hc
    rw [← a2, ← hC]
    show f _ _ = _
    rw [second]
    exact b5 a ha pa c i hi hc

/-- C34 (divergence conforming spaces): the matrix is block diagonal; the first block contains the B-splines of degree `P` in the first and
`P - 1` in the second direction (first vector component), the second block those with exchanged degrees. -/
theorem C34_divergence (junk : Nat → ℝ) (junkM : Nat → Nat → ℝ) (solve) (hs : SolvesSystems solve) (P M nP rep : Nat) (hnP : 0 < nP)
    (hP0 : 0 < P) (hP : P ≤ 19) (hrep : 1 ≤ rep) (hrP : rep ≤ P) (t : Mesh.Tree ℝ) (ht : initElementTree near corner nP M = some t) :
    ∃ T, makeMatrixDiv junk junkM solve t P M nP rep = some T ∧
      let nR := nP * 4 ^ M * ((P + 1) * (P + 1))
      let nC := nP * ((P + 1 + (2 ^ M - 1) * rep) * (P + (2 ^ M - 1) * rep))
      T.rows = 2 * nR ∧ T.cols = 2 * nC ∧
      (∀ i j, i < nR ∧ nC ≤ j ∨ nR ≤ i ∧ j < nC → T.at' i j = 0) ∧
      ContainsSplines T t P M nP (P + 1) P rep 0 0 (1 / 10000) ∧ ContainsSplines T t P M nP P (P + 1) rep nR nC (1 / 10000) ∧
      (P ≤ 4 → ContainsSplines T t P M nP (P + 1) P rep 0 0 0 ∧ ContainsSplines T t P M nP P (P + 1) rep nR nC 0) := by
  obtain ⟨T, h1, h2, h3, h4, h5, h6⟩ := div_matrix near corner junk junkM solve hs P M nP rep hnP hP0 hP hrep hrP t ht
  have A := containsSplines_of near corner T P M nP (P + 1) P rep 0 0 hnP (by omega) hP0 (Or.inl rfl) (Or.inr rfl) hrep t ht h5
  have B := containsSplines_of near corner T P M nP P (P + 1) rep _ _ hnP hP0 (by omega) (Or.inr rfl) (Or.inl rfl) hrep t ht h6
  exact ⟨T, h1, h2, h3, h4, A.1, B.1, fun h => ⟨A.2 h, B.2 h⟩⟩

/-! ### what the coefficients mean for functions -/

/-- C34 (functions): for `P ≤ 4` the function given by the degrees of freedom `f` is, on every element, the spline with the coefficients
`f`, divided by the mesh width. -/
theorem C34_function (junk : Nat → ℝ) (junkM : Nat → Nat → ℝ) (solve) (hs : SolvesSystems solve) (P M nP rep : Nat) (hnP : 0 < nP)
    (hP : P ≤ 4) (hrep : 1 ≤ rep) (t : Mesh.Tree ℝ) (ht : initElementTree near corner nP M = some t) (T f : EMat ℝ)
    (hT : makeMatrixDisc junk junkM solve t P M nP rep = some T) (a : Addr) (ha : IsNode nP M a) (s : ℝ × ℝ)
    (h1 : 0 ≤ s.1) (h2 : s.1 < 1) (h3 : 0 ≤ s.2) (h4 : s.2 < 1) :
    let r := min rep (P + 1)
    let dim := splineDim (P + 1) (2 ^ M) r * splineDim (P + 1) (2 ^ M) r
    discreteFunction T f (nP * 4 ^ M) P 0 (t.id a) (1 / 2 ^ M) s =
      2 ^ M * ∑ c ∈ range dim, f.at' (t.patch a * dim + c) 0 *
        patchSpline (P + 1) (P + 1) (2 ^ M) r c ((t.llc a).1 + s.1 / 2 ^ M, (t.llc a).2 + s.2 / 2 ^ M) := by
  intro r dim
  obtain ⟨T', e1, e2, e3, e4, e5⟩ := C34_discontinuous near corner junk junkM solve hs P M nP rep hnP (by omega) hrep t ht
  obtain rfl : T' = T := Option.some.inj (e1.symm.trans hT)
  have hpatch : t.patch a < nP := by
    obtain ⟨t', h1, h2, -⟩ := tree_facts (K := ℝ) near corner nP M hnP
    obtain rfl : t' = t := Option.some.inj (h1.symm.trans ht)
    rw [(h2 M le_rfl a (mem_leaves.2 ha)).2.2.1]; exact ha.1
  have key : ∀ pa < nP, ∀ c < dim, ∑ i ∈ range ((P + 1) * (P + 1)), T'.at' ((P + 1) * (P + 1) * t.id a + i) (pa * dim + c) * shape P i s =
      if t.patch a = pa then patchSpline (P + 1) (P + 1) (2 ^ M) r c ((t.llc a).1 + s.1 / 2 ^ M, (t.llc a).2 + s.2 / 2 ^ M) else 0 := by
    intro pa hpa c hc
    have := abs_nonpos_iff.1 (e5 hP a ha pa hpa c hc s h1 h2 h3 h4)
    refine sub_eq_zero.1 (Eq.trans ?_ this)
    simp only [Nat.zero_add, Nat.mul_comm (t.id a)]
    rfl
  unfold discreteFunction localCoeff
  rw [one_div_one_div]
  simp only [Algebra.algebraMap_self, RingHom.id_apply, Nat.zero_mul, Nat.zero_add]
  congr 1
  simp only [sum_mul]
  rw [sum_comm, e3, show nP * ((P + 1 + (2 ^ M - 1) * min rep (P + 1)) * (P + 1 + (2 ^ M - 1) * min rep (P + 1))) = nP * dim from rfl,
    H2.sum_range_mul]
  rw [Finset.sum_eq_single (t.patch a)]
  · refine sum_congr rfl fun c hc => ?_
    have := key _ hpatch c (mem_range.1 hc)
    rw [if_pos rfl] at this
    rw [← this, mul_sum]
    exact sum_congr rfl fun i _ => by ring
  · intro pa hpa hne
    refine sum_eq_zero fun c hc => ?_
    have := key pa (mem_range.1 hpa) c (mem_range.1 hc)
    rw [if_neg (Ne.symm hne)] at this
    rw [← mul_zero (f.at' (pa * dim + c) 0), ← this, mul_sum]
    exact sum_congr rfl fun i _ => by ring
  · intro h; exact absurd (mem_range.2 hpatch) h

/-! ### the tolerance loses coefficients for higher degrees -/

theorem polar_first (t : Nat → ℝ) (l : Nat) (us : List ℝ) (u : ℝ) :
    polar t l (u :: us) l = (u - t l) / (t (l + us.length + 1) - t l) * polar t l us l := by
  rw [polar, polar_support t l us (l + 1) (by omega), mul_zero, add_zero]

theorem polar_zero (t : Nat → ℝ) (l : Nat) : ∀ us : List ℝ, t l ∈ us → polar t l us l = 0
  | [], h => by simp at h
  | u :: us, h => by
    rw [polar_first]
    rcases List.mem_cons.1 h with h | h
    · rw [← h]; simp
    · rw [polar_zero t l us h, mul_zero]

/-- The last B-spline that is active on the first element. -/
theorem polar_power (n P : Nat) (hP : P ≤ n) (hn : 0 < n) (u : ℝ) : ∀ k, k ≤ P →
    polar (uniformKnot (P + 1) n 1) P (List.replicate k u) P = (u * n) ^ k / k.factorial
  | 0, _ => by simp [polar]
  | k + 1, hk => by
    have hn' : (n : ℝ) ≠ 0 := by positivity
    rw [List.replicate_succ, polar_first, List.length_replicate, polar_power n P hP hn u k (by omega)]
    have e1 : (uniformKnot (P + 1) n 1 P : ℝ) = 0 := by simp [uniformKnot]
    have e2 : (uniformKnot (P + 1) n 1 (P + k + 1) : ℝ) = (k + 1) / n := by
      unfold uniformKnot
      rw [if_neg (by omega)]
      by_cases h : P + k + 1 < P + 1 + (n - 1) * 1
      · rw [if_pos h, show P + k + 1 - (P + 1) = k by omega, Nat.div_one]; push_cast; rfl
      · rw [if_neg h]
        have : (k : ℝ) + 1 = n := by exact_mod_cast (by omega : k + 1 = n)
        rw [this, div_self hn']
    rw [e1, e2, Nat.factorial_succ]
    have hk1 : ((k : ℝ) + 1) ≠ 0 := by positivity
    have hf : (k.factorial : ℝ) ≠ 0 := by positivity
    push_cast
    rw [sub_zero, sub_zero]
    field_simp
    ring

theorem coef_first (n P : Nat) (hP : P ≤ n) (hn : 0 < n) (j : Nat) (hj : j ≤ P) :
    coef P (P + 1) n 1 0 P j = if j = P then 1 / (P.factorial : ℝ) else 0 := by
  unfold coef bezier
  rw [if_pos rfl]
  simp only [Nat.add_sub_cancel, Nat.mul_zero, Nat.add_zero]
  have k := (knot_span (P + 1) n 1 0 (by omega) le_rfl hn).2
  simp only [Nat.add_sub_cancel, Nat.mul_zero, Nat.add_zero, Nat.cast_zero, zero_add] at k
  split_ifs with h
  · subst h
    have hn' : (n : ℝ) ≠ 0 := by positivity
    rw [Nat.sub_self, List.replicate_zero, List.nil_append, polar_power n j hP hn _ j le_rfl, k, one_div_mul_cancel hn', one_pow]
  · refine polar_zero _ _ _ ?_
    rw [List.mem_append]
    exact Or.inl (List.mem_replicate.2 ⟨by omega, rfl⟩)

/-- C34, the tolerance is needed: for `P ≥ 5`, simple knots and at least `P` elements per direction, a B-spline that is positive on the first
element is zero there according to the matrix, because all its coefficients are below the tolerance. -/
theorem C34_inexact (junk : Nat → ℝ) (junkM : Nat → Nat → ℝ) (solve) (hs : SolvesSystems solve) (P M nP : Nat) (hnP : 0 < nP)
    (hP5 : 5 ≤ P) (hP : P ≤ 19) (hM : P ≤ 2 ^ M) (t : Mesh.Tree ℝ) (ht : initElementTree near corner nP M = some t) (T : EMat ℝ)
    (hT : makeMatrixDisc junk junkM solve t P M nP 1 = some T) : ¬ ContainsSplines T t P M nP (P + 1) (P + 1) 1 0 0 0 := by
  obtain ⟨T', e1, e2, e3, e4⟩ := disc_matrix near corner junk junkM solve hs P M nP 1 hnP hP le_rfl t ht
  obtain rfl : T' = T := Option.some.inj (e1.symm.trans hT)
  rw [show min 1 (P + 1) = 1 by omega] at e4
  intro h
  have hn : 0 < 2 ^ M := by positivity
  obtain ⟨l, l1, l2, l3, l4⟩ := pos_surj M 0 0 hn hn
  have ha : IsNode nP M (0, l) := ⟨hnP, l1, l2⟩
  obtain ⟨t', h1, h2, -⟩ := tree_facts (K := ℝ) near corner nP M hnP
  obtain rfl : t' = t := Option.some.inj (h1.symm.trans ht)
  obtain ⟨g1, g2, g3, g4⟩ := h2 M le_rfl (0, l) (mem_leaves.2 ha)
  simp only [l1, l3, l4] at g4
  have hD : P < splineDim (P + 1) (2 ^ M) 1 := by unfold splineDim; omega
  have hc : P * splineDim (P + 1) (2 ^ M) 1 + P < splineDim (P + 1) (2 ^ M) 1 * splineDim (P + 1) (2 ^ M) 1 := by nlinarith
  have hdm := divmod_pair (a := P) hD
  have := h (0, l) ha 0 hnP (P * splineDim (P + 1) (2 ^ M) 1 + P) hc (1 / 2, 1 / 2) (by norm_num) (by norm_num) (by norm_num) (by norm_num)
  have hf : (120 : ℝ) ≤ P.factorial := by
    have : Nat.factorial 5 ≤ P.factorial := Nat.factorial_le hP5
    exact_mod_cast this
  have hzero : ∑ i ∈ range ((P + 1) * (P + 1)), T'.at' (0 + (t'.id (0, l) * ((P + 1) * (P + 1)) + i))
      (0 + (0 * (splineDim (P + 1) (2 ^ M) 1 * splineDim (P + 1) (2 ^ M) 1) + (P * splineDim (P + 1) (2 ^ M) 1 + P))) *
        shape P i (1 / 2, 1 / 2) = 0 := by
    refine sum_eq_zero fun i hi => ?_
    have hi := mem_range.1 hi
    rw [Nat.zero_add, Nat.zero_add, e4 (0, l) ha 0 _ i hi hc, hdm.1, hdm.2]
    have d1 : i % (P + 1) ≤ P := by have := Nat.mod_lt i (show 0 < P + 1 by omega); omega
    have d2 : i / (P + 1) ≤ P := by have := (Nat.div_lt_iff_lt_mul (show 0 < P + 1 by omega)).2 hi; omega
    have hcut : cut (coef2 P (P + 1) (P + 1) (2 ^ M) 1 (posX l) (posY l) P P i) = 0 := by
      unfold cut coef2
      rw [l3, l4, coef_first _ P hM hn _ d1, coef_first _ P hM hn _ d2, if_neg]
      push Not
      split_ifs
      · rw [one_div_mul_one_div, abs_of_nonneg (by positivity)]
        exact one_div_le_one_div_of_le (by norm_num) (by nlinarith)
      all_goals norm_num
    simp only [hcut, ite_self, zero_mul]
  rw [hzero, g3, if_pos rfl, g4] at this
  simp only [] at this
  rw [patchSpline_bern P M (P + 1) (P + 1) 1 0 0 _ (by omega) (by omega) (Or.inl rfl) (Or.inl rfl) le_rfl hn hn (1 / 2, 1 / 2)
    (by norm_num) (by norm_num) (by norm_num) (by norm_num), hdm.1, hdm.2, zero_sub, abs_neg] at this
  have hpos : 0 < ∑ i ∈ range ((P + 1) * (P + 1)), coef2 P (P + 1) (P + 1) (2 ^ M) 1 0 0 P P i * shape P i ((1 / 2 : ℝ), (1 / 2 : ℝ)) := by
    have e : ∀ i < (P + 1) * (P + 1), coef2 P (P + 1) (P + 1) (2 ^ M) 1 0 0 P P i =
        (if i % (P + 1) = P then 1 / (P.factorial : ℝ) else 0) * (if i / (P + 1) = P then 1 / (P.factorial : ℝ) else 0) := by
      intro i hi
      have d1 : i % (P + 1) ≤ P := by have := Nat.mod_lt i (show 0 < P + 1 by omega); omega
      have d2 : i / (P + 1) ≤ P := by have := (Nat.div_lt_iff_lt_mul (show 0 < P + 1 by omega)).2 hi; omega
      unfold coef2
      rw [coef_first _ P hM hn _ d1, coef_first _ P hM hn _ d2]
    refine sum_pos' (fun i hi => ?_) ⟨P * (P + 1) + P, mem_range.2 (by nlinarith), ?_⟩
    · rw [e i (mem_range.1 hi)]
      refine mul_nonneg (mul_nonneg ?_ ?_) (mul_nonneg (bern_nonneg _ _ _ (by norm_num) (by norm_num)) (bern_nonneg _ _ _ (by norm_num) (by norm_num)))
      all_goals split_ifs <;> positivity
    · rw [e _ (by nlinarith), shape, (divmod_pair (show P < P + 1 by omega)).1, (divmod_pair (show P < P + 1 by omega)).2, if_pos rfl]
      unfold bern
      have : (1 : ℝ) - 1 / 2 = 1 / 2 := by norm_num
      simp only [this, Nat.choose_self]
      positivity
  rw [abs_of_pos hpos] at this
  linarith

/-! ### the hypotheses can be met -/

open scoped Classical in
/-- A linear solver. -/
noncomputable def solver : Nat → (Nat → Nat → ℝ) → (Nat → ℝ) → Nat → ℝ := fun n A b =>
  if h : ∃ x : Nat → ℝ, ∀ r < n, ∑ c ∈ range n, A r c * x c = b r then h.choose else fun _ => 0

theorem solver_solves : SolvesSystems solver := by
  intro n A b x hx hu c hc
  have h : ∃ x : Nat → ℝ, ∀ r < n, ∑ c ∈ range n, A r c * x c = b r := ⟨x, hx⟩
  unfold solver
  rw [dif_pos h]
  have := hu (fun c => h.choose c - x c) (fun r hr => by
    simp only [mul_sub, sum_sub_distrib]
    rw [h.choose_spec r hr, hx r hr, sub_self]) c hc
  exact sub_eq_zero.1 this

/-- Quadratic splines on two patches with 16 elements each: 288 rows, 72 columns. -/
example (junk : Nat → ℝ) (junkM : Nat → Nat → ℝ) : ∃ t : Mesh.Tree ℝ, ∃ T, makeMatrixDisc junk junkM solver t 2 2 2 1 = some T ∧
    T.rows = 288 ∧ T.cols = 72 ∧ ContainsSplines T t 2 2 2 3 3 1 0 0 0 := by
  obtain ⟨t, ht, -⟩ := tree_facts (K := ℝ) near corner 2 2 (by norm_num)
  obtain ⟨T, h1, h2, h3, _, h5⟩ := C34_discontinuous near corner junk junkM solver solver_solves 2 2 2 1 (by norm_num) (by norm_num) (by norm_num) t ht
  exact ⟨t, T, h1, h2, h3, h5 (by norm_num)⟩

/-- A quadratic spline is not zero where it should not be: the spline number 2 is positive on the first element. -/
example : 0 < uniformSpline 3 4 1 2 (1 / 8) := by
  have := spline_bern 2 3 4 1 0 2 (by norm_num) (Or.inl rfl) le_rfl (by norm_num) (1 / 2) (by norm_num) (by norm_num)
  rw [show ((0 : Nat) : ℝ) + 1 / 2 = 1 / 2 by norm_num, show (1 / 2 : ℝ) / ((4 : Nat) : ℝ) = 1 / 8 by norm_num] at this
  rw [this, sum_congr rfl fun j hj => by rw [coef_first 4 2 (by norm_num) (by norm_num) j (by simp at hj; omega)]]
  simp [bern]

end Bembel.Props
