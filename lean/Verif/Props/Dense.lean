import Verif.Model.DiscreteOperator
import Verif.Props.PairClass
import Verif.Lemmas.Knots
import Verif.Lemmas.PairSymm
import Verif.Props.Operators
import Verif.Lemmas.PairCongr
import Verif.Lemmas.ElementSquare
import Verif.Lemmas.GaussNodes
/-!
# C48, C49: dense assembly
-/

set_option linter.unusedSectionVars false

namespace Bembel.Props
open Mesh Dense Finset

section
variable {R : Type}

theorem writes_fold (ws : List (Write R)) : ∀ A : EMat R, (∀ w ∈ ws, w.row < A.rows ∧ w.col < A.cols) →
    (ws.map fun w => (w.row, w.col)).Nodup →
    ∃ A', ws.foldlM write A = some A' ∧ A'.rows = A.rows ∧ A'.cols = A.cols ∧
      (∀ w ∈ ws, A'.at' w.row w.col = w.val) ∧
      ∀ i j, (i, j) ∉ ws.map (fun w => (w.row, w.col)) → A'.at' i j = A.at' i j := by
  induction ws with
  | nil => intro A _ _; exact ⟨A, rfl, rfl, rfl, by simp, by simp⟩
  | cons w ws ih =>
    intro A hb hn
    rw [List.map_cons, List.nodup_cons] at hn
    obtain ⟨A', h1, h2, h3, h4, h5⟩ := ih ⟨A.rows, A.cols, fun i j => if i = w.row ∧ j = w.col then w.val else A.at' i j⟩
      (fun x hx => hb x (List.mem_cons_of_mem _ hx)) hn.2
    refine ⟨A', ?_, h2, h3, ?_, ?_⟩
    · rw [List.foldlM_cons, write, if_pos (hb w List.mem_cons_self)]
      exact h1
    · intro x hx
      rcases List.mem_cons.1 hx with rfl | hx
      · rw [h5 _ _ hn.1]; simp
      · exact h4 x hx
    · intro i j hij
      rw [List.map_cons, List.mem_cons, not_or] at hij
      rw [h5 i j hij.2]
      simp only
      rw [if_neg]
      rintro ⟨rfl, rfl⟩
      exact hij.1 rfl

theorem length_flatMap_const {α β : Type} (l : List α) (f : α → List β) (c : Nat) (h : ∀ a ∈ l, (f a).length = c) :
    (l.flatMap f).length = l.length * c := by
  rw [List.length_flatMap, List.map_congr_left h, List.map_const', List.sum_replicate, smul_eq_mul]

theorem taskWrites_length (vd n nE id1 id2 : Nat) (v : Nat → Nat → R) :
    (taskWrites vd n nE id1 id2 v).length = vd * (vd * (n * n)) := by
  unfold taskWrites
  rw [length_flatMap_const _ _ (vd * (n * n)), List.length_range]
  intro i _
  rw [length_flatMap_const _ _ (n * n), List.length_range]
  intro j _
  rw [length_flatMap_const _ _ n, List.length_range]
  intro c _
  rw [List.length_map, List.length_range]

theorem mem_taskWrites {vd n nE id1 id2 : Nat} {v : Nat → Nat → R} {w : Write R} :
    w ∈ taskWrites vd n nE id1 id2 v ↔ ∃ i < vd, ∃ j < vd, ∃ c < n, ∃ r < n,
      w = ⟨n * (i * nE + id1) + r, n * (j * nE + id2) + c, v (i * n + r) (j * n + c)⟩ := by
  simp only [taskWrites, List.mem_flatMap, List.mem_map, List.mem_range, eq_comm (a := w)]

/-- Every row number is that of exactly one element, component and shape function. -/
theorem row_split (vd n nE k : Nat) (hk : k < vd * n * nE) : ∃ i < vd, ∃ e < nE, ∃ r < n, k = n * (i * nE + e) + r := by
  have hn : 0 < n := Nat.pos_of_ne_zero fun h => by simp [h] at hk
  have hE : 0 < nE := Nat.pos_of_ne_zero fun h => by simp [h] at hk
  refine ⟨k / n / nE, ?_, k / n % nE, Nat.mod_lt _ hE, k % n, Nat.mod_lt _ hn, ?_⟩
  · rw [Nat.div_lt_iff_lt_mul hE, Nat.div_lt_iff_lt_mul hn]
    calc k < vd * n * nE := hk
      _ = vd * nE * n := by ring
  · rw [Nat.div_add_mod', Nat.div_add_mod]

theorem row_lt (vd n nE i e r : Nat) (hi : i < vd) (he : e < nE) (hr : r < n) : n * (i * nE + e) + r < vd * n * nE := by
  have h1 : i * nE + e + 1 ≤ vd * nE := by
    calc i * nE + e + 1 ≤ i * nE + nE := by omega
      _ = (i + 1) * nE := by ring
      _ ≤ vd * nE := Nat.mul_le_mul_right _ hi
  calc n * (i * nE + e) + r < n * (i * nE + e) + n := by omega
    _ = n * (i * nE + e + 1) := by ring
    _ ≤ n * (vd * nE) := Nat.mul_le_mul_left _ h1
    _ = vd * n * nE := by ring

end

section
variable {K R V : Type} [Field K] [CharZero K] [CommRing R]

/-- C48: for every mesh, if the computation of all pairs succeeds, then
* no matrix entry is assigned twice (by the same or by different tasks), all assignments are within the matrix and every entry of the
  matrix is assigned;
* whatever the order of the assignments and the previous contents of the matrix, the entry of shape function `r` in component `i` of
  element `a` and shape function `c` in component `j` of element `b` is the entry `(i n + r, j n + c)` of the matrix of the pair
  `(a, b)`;
* the result is `Tᵀ A T`. -/
theorem C48_schedule (near : V → V → Bool) (corner : Nat → Nat → V) (P M : Nat) (hP : 0 < P) (vd n : Nat) :
    ∃ t : Mesh.Tree K, initElementTree near corner P M = some t ∧
    ∀ (pair : Addr → Addr → Option (Nat → Nat → R)) (v : Addr → Addr → Nat → Nat → R),
    (∀ a b, IsNode P M a → IsNode P M b → pair a b = some (v a b)) →
    ∃ L, tasks t vd n pair = some L ∧
      (L.flatten.map fun w => (w.row, w.col)).Nodup ∧
      (∀ x y, (∃ w ∈ L.flatten, w.row = x ∧ w.col = y) ↔ x < vd * n * (P * 4 ^ M) ∧ y < vd * n * (P * 4 ^ M)) ∧
      ∀ (ws : List (Write R)), ws.Perm L.flatten → ∀ junk : Nat → Nat → R, ∃ A, assemble junk t vd n ws = some A ∧
        A.rows = vd * n * (P * 4 ^ M) ∧ A.cols = vd * n * (P * 4 ^ M) ∧
        (∀ a b, IsNode P M a → IsNode P M b → ∀ i < vd, ∀ j < vd, ∀ r < n, ∀ c < n,
          A.at' (n * (i * (P * 4 ^ M) + t.id a) + r) (n * (j * (P * 4 ^ M) + t.id b) + c) = v a b (i * n + r) (j * n + c)) ∧
        ∀ T : EMat R, T.rows = vd * n * (P * 4 ^ M) → ∃ S, compute junk t vd n ws T = some S ∧
          S.rows = T.cols ∧ S.cols = T.cols ∧ ∀ i j, S.at' i j =
            ∑ k ∈ range T.rows, ∑ l ∈ range T.rows, T.at' k i * A.at' k l * T.at' l j := by
  obtain ⟨t, h1, h2, h3, h4, h5, h6, h7⟩ := tree_facts (K := K) near corner P M hP
  refine ⟨t, h1, ?_⟩
  intro pair v hv
  have hel := elements_eq t P M hP h3 h6
  obtain ⟨t', e1, -, L0, e2, hlen, hnd, hid⟩ := C20_uniform_mesh (K := K) near corner P M hP
  obtain rfl : t = t' := Option.some.inj (h1.symm.trans e1)
  obtain rfl : L0 = leaves P M := Option.some.inj (e2.symm.trans hel)
  set nE := P * 4 ^ M with hnE
  have idlt : ∀ a ∈ leaves P M, t.id a < nE := by
    intro a ha
    obtain ⟨k, hk, rfl⟩ := List.mem_iff_getElem.1 ha
    rw [(hid k _ (List.getElem?_eq_getElem hk)).1, ← hlen]; exact hk
  have idsurj : ∀ k < nE, ∃ a ∈ leaves P M, t.id a = k := by
    intro k hk
    have hk' : k < (leaves P M).length := by rw [hlen]; exact hk
    exact ⟨_, List.getElem_mem hk', (hid k _ (List.getElem?_eq_getElem hk')).1⟩
  set prs := (leaves P M).flatMap fun a => (leaves P M).map fun b => (a, b) with hprs
  have hmem : ∀ e : Addr × Addr, e ∈ prs ↔ e.1 ∈ leaves P M ∧ e.2 ∈ leaves P M := by
    intro e
    simp only [hprs, List.mem_flatMap, List.mem_map]
    constructor
    · rintro ⟨a, ha, b, hb, rfl⟩; exact ⟨ha, hb⟩
    · rintro ⟨ha, hb⟩; exact ⟨_, ha, _, hb, rfl⟩
  let L := prs.map fun e => taskWrites vd n nE (t.id e.1) (t.id e.2) (v e.1 e.2)
  have hL : tasks t vd n pair = some L := by
    unfold tasks
    rw [hel]
    show prs.mapM _ = _
    refine mapM_eq_some_map _ _ _ fun e he => ?_
    have := (hmem e).1 he
    rw [hv _ _ (mem_leaves.1 this.1) (mem_leaves.1 this.2), Option.map_some, h3]
  have memL : ∀ w, w ∈ L.flatten ↔ ∃ a ∈ leaves P M, ∃ b ∈ leaves P M, ∃ i < vd, ∃ j < vd, ∃ c < n, ∃ r < n,
      w = ⟨n * (i * nE + t.id a) + r, n * (j * nE + t.id b) + c, v a b (i * n + r) (j * n + c)⟩ := by
    intro w
    simp only [L, List.mem_flatten, List.mem_map]
    constructor
    · rintro ⟨l, ⟨e, he, rfl⟩, hw⟩
      exact ⟨e.1, ((hmem e).1 he).1, e.2, ((hmem e).1 he).2, mem_taskWrites.1 hw⟩
    · rintro ⟨a, ha, b, hb, hw⟩
      exact ⟨_, ⟨(a, b), (hmem _).2 ⟨ha, hb⟩, rfl⟩, mem_taskWrites.2 hw⟩
  have bound : ∀ w ∈ L.flatten, w.row < vd * n * nE ∧ w.col < vd * n * nE := by
    intro w hw
    obtain ⟨a, ha, b, hb, i, hi, j, hj, c, hc, r, hr, rfl⟩ := (memL w).1 hw
    exact ⟨row_lt vd n nE i _ r hi (idlt a ha) hr, row_lt vd n nE j _ c hj (idlt b hb) hc⟩
  have cover : ∀ x y, x < vd * n * nE → y < vd * n * nE → ∃ w ∈ L.flatten, w.row = x ∧ w.col = y := by
    intro x y hx hy
    obtain ⟨i, hi, e, he, r, hr, rfl⟩ := row_split vd n nE x hx
    obtain ⟨j, hj, e', he', c, hc, rfl⟩ := row_split vd n nE y hy
    obtain ⟨a, ha, rfl⟩ := idsurj e he
    obtain ⟨b, hb, rfl⟩ := idsurj e' he'
    exact ⟨_, (memL _).2 ⟨a, ha, b, hb, i, hi, j, hj, c, hc, r, hr, rfl⟩, rfl, rfl⟩
  have len : L.flatten.length = (vd * n * nE) * (vd * n * nE) := by
    rw [List.length_flatten]
    have e : (L.map List.length) = prs.map fun _ => vd * (vd * (n * n)) := by
      simp only [L, List.map_map]
      exact List.map_congr_left fun e _ => taskWrites_length _ _ _ _ _ _
    rw [e, List.map_const', List.sum_replicate, smul_eq_mul]
    have : prs.length = nE * nE := by
      rw [hprs, length_flatMap_const _ _ nE, hlen]
      intro a _
      rw [List.length_map, hlen]
    rw [this]
    ring
  have nodup : (L.flatten.map fun w => (w.row, w.col)).Nodup := by
    have hc : (L.flatten.map fun w => (w.row, w.col)).toFinset = range (vd * n * nE) ×ˢ range (vd * n * nE) := by
      ext ⟨x, y⟩
      simp only [List.mem_toFinset, List.mem_map, mem_product, mem_range, Prod.mk.injEq]
      constructor
      · rintro ⟨w, hw, rfl, rfl⟩; exact bound w hw
      · rintro ⟨hx, hy⟩; exact cover x y hx hy
    have hcard := congrArg Finset.card hc
    rw [card_product, card_range, ← len, ← List.length_map (fun w : Write R => (w.row, w.col))] at hcard
    exact Multiset.toFinset_card_eq_card_iff_nodup.1 hcard
  refine ⟨L, hL, nodup, ?_, ?_⟩
  · intro x y
    constructor
    · rintro ⟨w, hw, rfl, rfl⟩; exact bound w hw
    · rintro ⟨hx, hy⟩; exact cover x y hx hy
  · intro ws hws junk
    obtain ⟨A, a1, a2, a3, a4, -⟩ := writes_fold ws ⟨vd * n * nE, vd * n * nE, junk⟩
      (fun w hw => bound w (hws.mem_iff.1 hw)) ((hws.map _).nodup_iff.2 nodup)
    have ha : assemble junk t vd n ws = some A := by unfold assemble; rw [h3]; exact a1
    refine ⟨A, ha, a2, a3, ?_, ?_⟩
    · intro a b hia hib i hi j hj r hr c hc
      exact a4 _ (hws.mem_iff.2 ((memL _).2 ⟨a, mem_leaves.2 hia, b, mem_leaves.2 hib, i, hi, j, hj, c, hc, r, hr, rfl⟩))
    · intro T hT
      refine ⟨⟨T.cols, T.cols, fun i j => ∑ k ∈ range T.rows, T.at' k i * ∑ l ∈ range T.rows, A.at' k l * T.at' l j⟩, ?_, ?_⟩
      · unfold compute
        rw [ha]
        simp only [Option.bind_eq_bind, Option.bind_some, EMat.mul]
        rw [if_pos (by rw [a3, hT]), Option.bind_some, if_pos (by show T.rows = A.rows; rw [a2, hT])]
        simp only [EMat.tr, a3, hT]
      · refine ⟨rfl, rfl, fun i j => ?_⟩
        show ∑ k ∈ range T.rows, T.at' k i * ∑ l ∈ range T.rows, A.at' k l * T.at' l j = _
        refine sum_congr rfl fun k _ => ?_
        rw [mul_sum]
        exact sum_congr rfl fun l _ => by ring

end

/-! ## C49 -/

section
open Duffy Util H2

variable {W : Type} [NormedAddCommGroup W] [NormedSpace ℝ W]

theorem shareVertex_symm {v1 v2 : Nat → Nat} {r s : Nat} (h : ShareVertex v1 v2 r s) : ShareVertex v2 v1 s r :=
  ⟨h.2.1, h.1, fun i hi j hj => by rw [eq_comm, h.2.2 j hj i hi, and_comm]⟩

theorem shareEdge_symm {v1 v2 : Nat → Nat} {r s : Nat} (h : ShareEdge v1 v2 r s) : ShareEdge v2 v1 s r :=
  ⟨h.2.1, h.1, fun i hi j hj => by rw [eq_comm, h.2.2 j hj i hi, or_comm, and_comm, and_comm (a := j = r)]⟩

/-- C49: exchanging the two elements of a pair transforms the result of the quadrature in the same way as exchanging the points
transforms the integrand.  `τ` is a linear transformation of the results (the transposition of matrices). -/
theorem C49_pair {SP E : Type} [AddCommGroup E] [Module ℝ E] (near : W → W → Bool) (corner : Nat → Nat → W) (P M : Nat) (hP : 0 < P)
    (hM : 1 ≤ M) (hc : ConformingPatches near corner P) (ho : OrientedPatches corner P) (F : Nat → ℝ × ℝ → W)
    (hw : Watertight corner P F) (junk : Nat → W) (B0 : Addr → Ball W) (ev ev' : SP → SP → E → E)
    (surf : Addr → ℝ × ℝ → ℝ → SP) (G G' : Addr → Addr → PointPair → E)
    (hev : ∀ a b, AddsIntegrand ev (surf a) (surf b) (G a b)) (hev' : ∀ a b, AddsIntegrand ev' (surf a) (surf b) (G' a b))
    (τ : E →ₗ[ℝ] E) (hG : ∀ a b x y, G' b a (y, x) = τ (G a b (x, y))) (order : Int) (p : Nat) (q : Nat → Quad1 ℝ)
    (hq : ∀ k, Reflective (q k)) (ffq : Addr → Nat → SP)
    (hff : ∀ a, IsNode P M a → ∀ k < (tensorRule (q (farfieldDegree order p).toNat)).size, ffq a k =
      surf a ((tensorRule (q (farfieldDegree order p).toNat)).xi k)
        (1 / 2 ^ M * (tensorRule (q (farfieldDegree order p).toNat)).w k)) :
    ∃ t : Mesh.Tree ℝ, initElementTree near corner P M = some t ∧ ∃ B, computeElementEnclosings t F junk B0 = some B ∧
      ∀ a b, IsNode P M a → IsNode P M b →
        evaluateBilinearForm order p t B ev' surf (fun k => tensorRule (q k)) ffq b a =
          (evaluateBilinearForm order p t B ev surf (fun k => tensorRule (q k)) ffq a b).map τ := by
  obtain ⟨t, h1, B, h2, h3⟩ := C45_pair near corner P M hP hc F hw junk B0 ev surf G hev order p (fun k => tensorRule (q k)) ffq hff
  obtain ⟨t', h1', B', h2', h3'⟩ :=
    C45_pair near corner P M hP hc F hw junk B0 ev' surf G' hev' order p (fun k => tensorRule (q k)) ffq hff
  obtain rfl : t = t' := Option.some.inj (h1.symm.trans h1')
  obtain rfl : B = B' := Option.some.inj (h2.symm.trans h2')
  obtain ⟨t', g1, B', g2, g3⟩ := C44_compare near corner P M hP hc F hw junk B0
  obtain rfl : t = t' := Option.some.inj (h1.symm.trans g1)
  obtain rfl : B = B' := Option.some.inj (h2.symm.trans g2)
  obtain ⟨t', k1, k2⟩ := C44_mesh (K := ℝ) near corner P M hP hc ho
  obtain rfl : t = t' := Option.some.inj (h1.symm.trans k1)
  obtain ⟨t', l1, l2, -⟩ := tree_facts (K := ℝ) near corner P M hP
  obtain rfl : t = t' := Option.some.inj (h1.symm.trans l1)
  have lv : ∀ a, IsNode P M a → t.level a = M := by
    intro a ha
    obtain ⟨_, e, _⟩ := l2 M le_rfl a (mem_leaves.2 ha)
    rw [e]; exact ha.2.1
  refine ⟨t, h1, B, h2, ?_⟩
  intro a b ha hb
  have hflip : ∀ a b, G' b a = flip τ (G a b) := by
    intro a b
    funext x
    exact hG a b x.2 x.1
  have cls := k2 M hM le_rfl a b ha hb
  have hdist : (compareElements t B b a).2 = (compareElements t B a b).2 := by
    by_cases hab : a = b
    · subst hab; rfl
    · obtain ⟨-, c2, c3, c4⟩ := g3 a b ha hb
      obtain ⟨-, d2, d3, d4⟩ := g3 b a hb ha
      have hba : b ≠ a := fun h => hab h.symm
      rcases cls hab with h | ⟨r, s, h⟩ | ⟨r, s, h⟩
      · rw [c2 hab h, d2 hba fun i hi j hj e => h j hj i hi e.symm]
        simp only [elementDist]
        rw [norm_sub_rev, sub_right_comm]
      · rw [(c3 r s hab h).1, (d3 s r hba (shareVertex_symm h)).1]
      · rw [(c4 r s hab h).1, (d4 s r hba (shareEdge_symm h)).1]
  by_cases hd : pairDegree order p (compareElements t B a b).2 M < 50
  · obtain ⟨c1, c2, c3, c4⟩ := h3 a b ha hb hd
    obtain ⟨d1, d2, d3, d4⟩ := h3' b a hb ha (by rw [hdist]; exact hd)
    rw [hdist] at d1 d2 d3 d4
    by_cases hab : a = b
    · rw [c1 hab, d1 hab.symm, Option.map_some, map_smul, hflip]
      congr 2
      rw [← pairQuad_map]
      congr 1
      funext x
      exact transformed2_flip τ _ x
    · have hba : b ≠ a := fun h => hab h.symm
      rcases cls hab with h | ⟨r, s, h⟩ | ⟨r, s, h⟩
      · rw [c2 hab h, d2 hba fun i hi j hj e => h j hj i hi e.symm, Option.map_some, map_smul, hflip, pairQuad_flip]
      · rw [c3 r s hab h, d3 s r hba (shareVertex_symm h), Option.map_some, map_smul, hflip, rotated_flip]
        congr 2
        rw [← pairQuad_map]
        congr 1
        funext x
        exact transformed4_flip τ _ x
      · rw [c4 r s hab h, d4 s r hba (shareEdge_symm h), Option.map_some, map_smul, hflip, rotated_flip,
          transformed3_flip _ (hq _)]
  · unfold evaluateBilinearForm
    simp only [lv a ha, lv b hb, hdist, if_neg hd, Option.map_none]

open SuperSpace Spec in
theorem contracts_adds {R : Type} [CommRing R] [Algebra ℝ R] {op : Operator R} {T : (P M d a i : Nat) → ℝ × ℝ → ℝ}
    (h : Contracts op T) (hwf : ∀ (p1 p2 : SurfPt) (w1 w2 : ℝ) (a b), op.fmm { p1 with w := w1 } { p2 with w := w2 } a b = op.fmm p1 p2 a b)
    (t : Mesh.Tree ℝ) (geo : Nat → ℝ × ℝ → V3 × V3 × V3) (hreg : ∀ a xi w, Regular (map2surface t geo a xi w))
    (jr : Nat → ℝ) (jk : Nat → R) (P M : Nat) (a b : Addr) :
    AddsIntegrand (op.integrand jr jk P M) (map2surface t geo a) (map2surface t geo b)
      (fun x => op.integrand jr jk P M (map2surface t geo a x.1 1) (map2surface t geo b x.2 1) 0) := by
  intro x y ws wt v
  obtain ⟨h1, h2⟩ := h jr jk P M (map2surface t geo a x ws) (map2surface t geo b y wt) v (hreg _ _ _) (hreg _ _ _)
  obtain ⟨g1, g2⟩ := h jr jk P M (map2surface t geo a x 1) (map2surface t geo b y 1) 0 (hreg _ _ _) (hreg _ _ _)
  funext i j
  show _ = v i j + (ws * wt) • op.integrand jr jk P M (map2surface t geo a x 1) (map2surface t geo b y 1) 0 i j
  set n := (P + 1) * (P + 1) with hn
  have hn0 : 0 < n := by positivity
  by_cases hij : i < op.vd * n ∧ j < op.vd * n
  · have hi := Nat.div_add_mod' i n
    have hj := Nat.div_add_mod' j n
    have e1 := h1 (i / n) ((Nat.div_lt_iff_lt_mul hn0).2 hij.1) (j / n) ((Nat.div_lt_iff_lt_mul hn0).2 hij.2) (i % n) (Nat.mod_lt _ hn0)
      (j % n) (Nat.mod_lt _ hn0)
    have e2 := g1 (i / n) ((Nat.div_lt_iff_lt_mul hn0).2 hij.1) (j / n) ((Nat.div_lt_iff_lt_mul hn0).2 hij.2) (i % n) (Nat.mod_lt _ hn0)
      (j % n) (Nat.mod_lt _ hn0)
    rw [hi, hj] at e1 e2
    have f1 : ∀ a' b', op.fmm (map2surface t geo a x ws) (map2surface t geo b y wt) a' b' =
        op.fmm (map2surface t geo a x 1) (map2surface t geo b y 1) a' b' :=
      hwf (map2surface t geo a x 1) (map2surface t geo b y 1) ws wt
    rw [e1, e2]
    simp only [f1]
    show v i j + algebraMap ℝ R (ws * wt) * _ = v i j + (ws * wt) • (0 + algebraMap ℝ R (1 * 1) * _)
    rw [mul_one, map_one, one_mul, zero_add, Algebra.smul_def]
    rfl
  · rw [h2 i j hij, g2 i j hij]
    simp

/-- Transposition of a matrix. -/
def transposeL (R : Type) [CommRing R] [Algebra ℝ R] : (Nat → Nat → R) →ₗ[ℝ] (Nat → Nat → R) where
  toFun := fun A i j => A j i
  map_add' := fun _ _ => rfl
  map_smul' := fun _ _ => rfl

open SuperSpace Spec in
/-- The dense matrices of adjoint operators are transposes of each other, for parametrisations that are regular in the whole plane. -/
theorem matrix_transpose {R : Type} [CommRing R] [Algebra ℝ R] (near : V3 → V3 → Bool) (corner : Nat → Nat → V3) (P M : Nat) (hP : 0 < P)
    (hM : 1 ≤ M) (hc : ConformingPatches near corner P) (ho : OrientedPatches corner P) (geo : Nat → ℝ × ℝ → V3 × V3 × V3)
    (hw : Watertight corner P (fun p x => (geo p x).1)) (hgeo : ∀ p x, cross3 (geo p x).2.1 (geo p x).2.2 ≠ 0)
    (junk : Nat → V3) (B0 : Addr → Ball V3) (op op' : Operator R) (T : (P M d a i : Nat) → ℝ × ℝ → ℝ) (h : Contracts op T)
    (h' : Contracts op' T) (hadj : Adjoint op op') (jr : Nat → ℝ) (jk : Nat → R) (p : Nat) (q : Nat → Quad1 ℝ)
    (hq : ∀ k, Reflective (q k)) :
    ∃ t : Mesh.Tree ℝ, initElementTree near corner P M = some t ∧ ∃ B,
    computeElementEnclosings t (fun p x => (geo p x).1) junk B0 = some B ∧
    ∀ ffq : Addr → Nat → SurfPt,
    (∀ a, IsNode P M a → ∀ k < (tensorRule (q (farfieldDegree op.order p).toNat)).size, ffq a k =
      map2surface t geo a ((tensorRule (q (farfieldDegree op.order p).toNat)).xi k)
        (1 / 2 ^ M * (tensorRule (q (farfieldDegree op.order p).toNat)).w k)) →
    let n := (p + 1) * (p + 1)
    let pair := fun o : Operator R => evaluateBilinearForm o.order p t B (o.integrand jr jk p M) (map2surface t geo)
      (fun k => tensorRule (q k)) ffq
    ∀ L, tasks t op.vd n (pair op) = some L → ∃ L', tasks t op'.vd n (pair op') = some L' ∧
    ∀ ws ws', ws.Perm L.flatten → ws'.Perm L'.flatten → ∀ junkA junkA' : Nat → Nat → R, ∀ Tr : EMat R,
      Tr.rows = op.vd * n * (P * 4 ^ M) → ∃ S S', compute junkA t op.vd n ws Tr = some S ∧
        compute junkA' t op'.vd n ws' Tr = some S' ∧ S.rows = Tr.cols ∧ S.cols = Tr.cols ∧ S'.rows = Tr.cols ∧
        S'.cols = Tr.cols ∧ ∀ i j, S'.at' i j = S.at' j i := by
  obtain ⟨t, h1, h2, h3, h4, h5, h6, h7⟩ := tree_facts (K := ℝ) near corner P M hP
  have hreg : ∀ a xi w, Regular (map2surface t geo a xi w) := fun a xi w => hgeo _ _
  have hwf' : ∀ (p1 p2 : SurfPt) (w1 w2 : ℝ) (a b), op'.fmm { p1 with w := w1 } { p2 with w := w2 } a b = op'.fmm p1 p2 a b := by
    intro p1 p2 w1 w2 a b
    rw [hadj.fmm, hadj.fmm]
    exact hadj.weightFree p2 p1 w2 w1 b a
  have hev := contracts_adds h hadj.weightFree t geo hreg jr jk p M
  have hev' := contracts_adds h' hwf' t geo hreg jr jk p M
  have hG : ∀ a b x y, op'.integrand jr jk p M (map2surface t geo b y 1) (map2surface t geo a x 1) 0 =
      transposeL R (op.integrand jr jk p M (map2surface t geo a x 1) (map2surface t geo b y 1) 0) := by
    intro a b x y
    obtain ⟨e1, e2⟩ := h jr jk p M (map2surface t geo a x 1) (map2surface t geo b y 1) 0 (hreg _ _ _) (hreg _ _ _)
    obtain ⟨g1, g2⟩ := h' jr jk p M (map2surface t geo b y 1) (map2surface t geo a x 1) 0 (hreg _ _ _) (hreg _ _ _)
    rw [hadj.vd, hadj.nc] at g1
    rw [hadj.vd] at g2
    funext i j
    show _ = op.integrand jr jk p M (map2surface t geo a x 1) (map2surface t geo b y 1) 0 j i
    set n := (p + 1) * (p + 1) with hn
    have hn0 : 0 < n := by positivity
    by_cases hij : i < op.vd * n ∧ j < op.vd * n
    · have hi := Nat.div_add_mod' i n
      have hj := Nat.div_add_mod' j n
      have di := (Nat.div_lt_iff_lt_mul hn0).2 hij.1
      have dj := (Nat.div_lt_iff_lt_mul hn0).2 hij.2
      have a1 := g1 (i / n) di (j / n) dj (i % n) (Nat.mod_lt _ hn0) (j % n) (Nat.mod_lt _ hn0)
      have a2 := e1 (j / n) dj (i / n) di (j % n) (Nat.mod_lt _ hn0) (i % n) (Nat.mod_lt _ hn0)
      rw [hi, hj] at a1 a2
      rw [a1, a2, sum_comm]
      simp only [hadj.fmm]
      congr 2
      refine sum_congr rfl fun b' _ => sum_congr rfl fun a' _ => ?_
      rw [mul_comm (T p M (i / n) a' (i % n) _)]
    · rw [g2 i j hij, e2 j i (fun hh => hij ⟨hh.2, hh.1⟩)]
      rfl
  obtain ⟨B, h8⟩ : ∃ B, computeElementEnclosings t (fun p x => (geo p x).1) junk B0 = some B := by
    obtain ⟨t', e1, B, e2, -⟩ := C44_compare near corner P M hP hc (fun p x => (geo p x).1) hw junk B0
    obtain rfl : t = t' := Option.some.inj (h1.symm.trans e1)
    exact ⟨B, e2⟩
  refine ⟨t, h1, B, h8, ?_⟩
  intro ffq hff n pair L hL
  obtain ⟨t', e1, B', e2, hpair⟩ := C49_pair near corner P M hP hM hc ho (fun p x => (geo p x).1) hw junk B0
    (op.integrand jr jk p M) (op'.integrand jr jk p M) (map2surface t geo) _ _ hev hev' (transposeL R) hG op.order p q hq ffq hff
  obtain rfl : t = t' := Option.some.inj (h1.symm.trans e1)
  obtain rfl : B = B' := Option.some.inj (h8.symm.trans e2)
  have hel := elements_eq t P M hP h3 h6
  -- all pairs succeed
  have hsome : ∀ a b, IsNode P M a → IsNode P M b → ∃ v, pair op a b = some v := by
    intro a b ha hb
    unfold tasks at hL
    rw [hel] at hL
    change List.mapM _ ((leaves P M).flatMap fun a => (leaves P M).map fun b => (a, b)) = some L at hL
    have hmem : (a, b) ∈ (leaves P M).flatMap fun a => (leaves P M).map fun b => (a, b) :=
      List.mem_flatMap.2 ⟨a, mem_leaves.2 ha, List.mem_map.2 ⟨b, mem_leaves.2 hb, rfl⟩⟩
    by_contra hn
    have : pair op a b = none := by
      cases hpo : pair op a b with
      | none => rfl
      | some v => exact absurd ⟨v, hpo⟩ hn
    have none_of : ∀ (l : List (Addr × Addr)) (f : Addr × Addr → Option (List (Write R))), (a, b) ∈ l → f (a, b) = none →
        l.mapM f = none := by
      intro l f
      induction l with
      | nil => intro hm; simp at hm
      | cons x l ih =>
        intro hm hf
        rw [List.mapM_cons]
        rcases List.mem_cons.1 hm with e | hm
        · rw [← e, hf]; rfl
        · rw [ih hm hf]
          cases f x <;> rfl
    rw [none_of _ _ hmem (by simp only [this, Option.map_none])] at hL
    exact absurd hL (by simp)
  choose! v hv using hsome
  have hv' : ∀ a b, IsNode P M a → IsNode P M b → pair op' a b = some (fun i j => v b a j i) := by
    intro a b ha hb
    show evaluateBilinearForm op'.order p t B _ _ _ ffq a b = _
    rw [hadj.order, hpair b a hb ha]
    have := hv b a hb ha
    simp only [pair] at this
    rw [this]
    rfl
  obtain ⟨t', k1, k2⟩ := C48_schedule (K := ℝ) (R := R) near corner P M hP op.vd n
  obtain rfl : t = t' := Option.some.inj (h1.symm.trans k1)
  obtain ⟨L1, m1, -, m2, m3⟩ := k2 (pair op) v hv
  obtain rfl : L1 = L := Option.some.inj (m1.symm.trans hL)
  obtain ⟨L', m1', -, m2', m3'⟩ := k2 (pair op') _ hv'
  rw [hadj.vd]
  refine ⟨L', m1', ?_⟩
  intro ws ws' hws hws' junkA junkA' Tr hTr
  obtain ⟨A, a1, a2, a3, a4, a5⟩ := m3 ws hws junkA
  obtain ⟨A', a1', a2', a3', a4', a5'⟩ := m3' ws' hws' junkA'
  obtain ⟨S, s1, s2, s3, s4⟩ := a5 Tr hTr
  obtain ⟨S', s1', s2', s3', s4'⟩ := a5' Tr hTr
  refine ⟨S, S', s1, s1', s2, s3, s2', s3', ?_⟩
  have hAA : ∀ k < Tr.rows, ∀ l < Tr.rows, A'.at' k l = A.at' l k := by
    intro k hk l hl
    rw [hTr] at hk hl
    obtain ⟨i, hi, e, he, r, hr, rfl⟩ := row_split op.vd n _ k hk
    obtain ⟨j, hj, e', he', c, hcc, rfl⟩ := row_split op.vd n _ l hl
    obtain ⟨t', u1, -, L0, u2, hlen, hnd, hid⟩ := C20_uniform_mesh (K := ℝ) near corner P M hP
    obtain rfl : t = t' := Option.some.inj (h1.symm.trans u1)
    obtain rfl : L0 = leaves P M := Option.some.inj (u2.symm.trans hel)
    have idsurj : ∀ k < P * 4 ^ M, ∃ a, IsNode P M a ∧ t.id a = k := by
      intro k hk
      have hk' : k < (leaves P M).length := by rw [hlen]; exact hk
      exact ⟨_, mem_leaves.1 (List.getElem_mem hk'), (hid k _ (List.getElem?_eq_getElem hk')).1⟩
    obtain ⟨a, ha, rfl⟩ := idsurj e he
    obtain ⟨b, hb, rfl⟩ := idsurj e' he'
    rw [a4' a b ha hb i hi j hj r hr c hcc, a4 b a hb ha j hj i hi c hcc r hr]
  intro i j
  rw [s4', s4, sum_comm]
  refine sum_congr rfl fun k hk => sum_congr rfl fun l hl => ?_
  rw [hAA l (mem_range.1 hl) k (mem_range.1 hk)]
  ring

theorem mapM_congr_mem {α β : Type} (f g : α → Option β) : ∀ l : List α, (∀ x ∈ l, f x = g x) → l.mapM f = l.mapM g
  | [], _ => by simp
  | x :: l, h => by
    rw [List.mapM_cons, List.mapM_cons, h x List.mem_cons_self, mapM_congr_mem f g l fun y hy => h y (List.mem_cons_of_mem _ hy)]

open SuperSpace Spec in
/-- C49: the dense matrices of adjoint operators are transposes of each other, whatever the orders of the assignments; in particular
(`op' = op`, see `C49_adjoint`) the matrices of the single layer and hypersingular operators are symmetric. -/
theorem C49_matrix {R : Type} [CommRing R] [Algebra ℝ R] (near : V3 → V3 → Bool) (corner : Nat → Nat → V3) (P M : Nat) (hP : 0 < P)
    (hM : 1 ≤ M) (hc : ConformingPatches near corner P) (ho : OrientedPatches corner P) (geo : Nat → ℝ × ℝ → V3 × V3 × V3)
    (hw : Watertight corner P (fun p x => (geo p x).1)) (hgeo : RegularPatches P geo)
    (junk : Nat → V3) (B0 : Addr → Ball V3) (op op' : Operator R) (T : (P M d a i : Nat) → ℝ × ℝ → ℝ) (h : Contracts op T)
    (h' : Contracts op' T) (hadj : Adjoint op op') (jr : Nat → ℝ) (jk : Nat → R) (p : Nat) (q : Nat → Quad1 ℝ)
    (hq : ∀ k, Reflective (q k)) (hq01 : ∀ k, ∀ i < (q k).size, 0 ≤ (q k).xi i ∧ (q k).xi i ≤ 1) :
    ∃ t : Mesh.Tree ℝ, initElementTree near corner P M = some t ∧ ∃ B,
    computeElementEnclosings t (fun p x => (geo p x).1) junk B0 = some B ∧
    ∀ ffq : Addr → Nat → SurfPt,
    (∀ a, IsNode P M a → ∀ k < (tensorRule (q (farfieldDegree op.order p).toNat)).size, ffq a k =
      map2surface t geo a ((tensorRule (q (farfieldDegree op.order p).toNat)).xi k)
        (1 / 2 ^ M * (tensorRule (q (farfieldDegree op.order p).toNat)).w k)) →
    let n := (p + 1) * (p + 1)
    let pair := fun o : Operator R => evaluateBilinearForm o.order p t B (o.integrand jr jk p M) (map2surface t geo)
      (fun k => tensorRule (q k)) ffq
    ∀ L, tasks t op.vd n (pair op) = some L → ∃ L', tasks t op'.vd n (pair op') = some L' ∧
    ∀ ws ws', ws.Perm L.flatten → ws'.Perm L'.flatten → ∀ junkA junkA' : Nat → Nat → R, ∀ Tr : EMat R,
      Tr.rows = op.vd * n * (P * 4 ^ M) → ∃ S S', compute junkA t op.vd n ws Tr = some S ∧
        compute junkA' t op'.vd n ws' Tr = some S' ∧ S.rows = Tr.cols ∧ S.cols = Tr.cols ∧ S'.rows = Tr.cols ∧
        S'.cols = Tr.cols ∧ ∀ i j, S'.at' i j = S.at' j i := by
  obtain ⟨t, h1, B, h8, H⟩ := matrix_transpose near corner P M hP hM hc ho (extendGeo P geo) hw (extendGeo_regular P geo hgeo) junk B0 op op' T h h'
    hadj jr jk p q hq
  refine ⟨t, h1, B, h8, ?_⟩
  intro ffq hff n pair L hL
  have hext := map2surface_extend near corner P M hP t h1 geo M le_rfl
  have hS : ∀ k, ∀ i < (tensorRule (q k)).size, ClosedSquare ((tensorRule (q k)).xi i) := fun k => tensorRule_closed _ (hq01 k)
  have hpair : ∀ o : Operator R, ∀ a b, IsNode P M a → IsNode P M b → pair o a b = evaluateBilinearForm o.order p t B (o.integrand jr jk p M)
      (map2surface t (extendGeo P geo)) (fun k => tensorRule (q k)) ffq a b := fun o a b ha hb =>
    evaluateBilinearForm_congr _ _ _ _ _ _ _ _ hS _ _ _ (hext a ha) (hext b hb)
  obtain ⟨t', g1, g2, g3, g4, g5, g6, g7⟩ := tree_facts (K := ℝ) near corner P M hP
  obtain rfl : t = t' := Option.some.inj (h1.symm.trans g1)
  have hel := elements_eq t P M hP g3 g6
  have htask : ∀ o : Operator R, ∀ vd, tasks t vd n (pair o) = tasks t vd n (evaluateBilinearForm o.order p t B (o.integrand jr jk p M)
      (map2surface t (extendGeo P geo)) (fun k => tensorRule (q k)) ffq) := by
    intro o vd
    unfold tasks
    rw [hel]
    refine mapM_congr_mem _ _ _ fun e he => ?_
    obtain ⟨a, ha, he⟩ := List.mem_flatMap.1 he
    obtain ⟨b, hb, rfl⟩ := List.mem_map.1 he
    simp only [hpair o a b (mem_leaves.1 ha) (mem_leaves.1 hb)]
  simp only [htask] at hL ⊢
  exact H ffq (fun a ha k hk => by rw [hff a ha k hk, hext a ha _ (hS _ k hk)]) L hL

/-- C49: the Gauss rules are symmetric: every rule with `n` nodes that is exact for polynomials of degree `2n - 1`. -/
theorem C49_gauss (q : Quad1 ℝ) (n : Nat) (hs : q.size = n) (hn : 1 ≤ n) (hex : ExactTo q (2 * n - 1)) : Reflective q := by
  classical
  have hinj := exact_injective q n hs hn hex
  choose! σ h1 h2 using exact_symmetric q n hs hn hex
  refine ⟨σ, fun a ha => ?_⟩
  rw [hs] at ha ⊢
  have hσσ : σ (σ a) = a := hinj (mem_coe.2 (mem_range.2 (h1 _ (h1 a ha)))) (mem_coe.2 (mem_range.2 ha)) (by rw [h2 _ (h1 a ha), h2 a ha]; ring)
  refine ⟨h1 a ha, hσσ, h2 a ha, ?_⟩
  let L : Polynomial ℝ := ∏ b ∈ (range n).erase a, (Polynomial.X - Polynomial.C (q.xi b))
  have hLd : L.natDegree ≤ n - 1 := by
    refine (Polynomial.natDegree_prod_le _ _).trans ?_
    refine (sum_le_card_nsmul _ _ 1 fun y _ => by simp).trans ?_
    rw [card_erase_of_mem (mem_range.2 ha), card_range]; simp
  let R : Polynomial ℝ := 1 - Polynomial.X
  have hR : R.natDegree ≤ 1 := (Polynomial.natDegree_sub_le _ _).trans (by simp)
  have hLR : (L.comp R).natDegree ≤ n - 1 := Polynomial.natDegree_comp_le.trans ((Nat.mul_le_mul_left _ hR).trans (by omega))
  have hLev : ∀ x, L.eval x = ∏ b ∈ (range n).erase a, (x - q.xi b) := fun x => by simp only [L, Polynomial.eval_prod]; simp
  have hRev : ∀ x, (L.comp R).eval x = L.eval (1 - x) := fun x => by simp [R]
  have hL0 : L.eval (q.xi a) ≠ 0 := by
    rw [hLev, prod_ne_zero_iff]
    intro b hb he
    rw [mem_erase] at hb
    exact hb.1 (hinj (mem_coe.2 hb.2) (mem_coe.2 (mem_range.2 ha)) (sub_eq_zero.1 he).symm)
  have i1 := hex L (by omega)
  have i2 := hex (L.comp R) (by omega)
  have e1 : ∑ k ∈ range n, q.w k * L.eval (q.xi k) = q.w a * L.eval (q.xi a) := by
    rw [sum_eq_single a]
    · intro b hb hba
      rw [hLev, prod_eq_zero (mem_erase.2 ⟨hba, hb⟩) (sub_self _), mul_zero]
    · intro h; exact absurd (mem_range.2 ha) h
  have e2 : ∑ k ∈ range n, q.w k * (L.comp R).eval (q.xi k) = q.w (σ a) * L.eval (q.xi a) := by
    rw [sum_eq_single (σ a)]
    · rw [hRev, h2 a ha]; ring_nf
    · intro b hb hba
      have hb' := mem_range.1 hb
      have hne : σ b ≠ a := by
        intro h
        refine hba (hinj (mem_coe.2 hb) (mem_coe.2 (mem_range.2 (h1 a ha))) ?_)
        have := h2 b hb'
        rw [h] at this
        rw [h2 a ha, this]; ring
      rw [hRev, hLev, ← h2 b hb', prod_eq_zero (mem_erase.2 ⟨hne, mem_range.2 (h1 b hb')⟩) (sub_self _), mul_zero]
    · intro h; exact absurd (mem_range.2 (h1 a ha)) h
  have e3 : ∫ x in (0:ℝ)..1, (L.comp R).eval x = ∫ x in (0:ℝ)..1, L.eval x := by
    rw [intervalIntegral.integral_congr fun x _ => hRev x]
    have := intervalIntegral.integral_comp_sub_left (a := 0) (b := 1) (fun x => L.eval x) 1
    simpa using this
  rw [hs] at i1 i2
  rw [← i1, e1, ] at e3
  rw [e2] at i2
  exact mul_right_cancel₀ hL0 (i2.trans e3)

/-- Symmetric rules exist: the midpoint rule. -/
example : Reflective ⟨1, fun _ => 1, fun _ => 1 / 2⟩ := ⟨fun i => i, fun i hi => ⟨hi, rfl, by norm_num, rfl⟩⟩

end

end Bembel.Props
