import Verif.Model.AnsatzSpace
import Verif.Spec.AnsatzSpace
import Verif.Lemmas.Traces
import Verif.Props.Projector
import Verif.Props.Glue
import Verif.Props.H2
/-!
# C64: the ansatz spaces are conforming
-/

set_option linter.unusedSectionVars false

open Finset

namespace Bembel.Props
open Spec Spl Basis Mesh Projector Glue Ansatz

variable {V : Type} (near : V → V → Bool) (corner : Nat → Nat → V)

/-! ### the glue matrix -/

/-- A matrix with one entry per row. -/
structure OnePerRow (G : EMat ℝ) (pre : Nat) (trips : List (Nat × Nat × Int)) (col : Nat → Nat) (val : Nat → Int) : Prop where
  mem : ∀ d < pre, (d, col d, val d) ∈ trips
  rows : G.rows = pre
  lt : ∀ d < pre, col d < G.cols
  entry : ∀ d < pre, ∀ j, G.at' d j = if j = col d then (val d : ℝ) else 0

theorem onePerRow (pre post : Nat) (trips : List (Nat × Nat × Int)) (Same : Nat → Nat → Prop) (h : GlueMatrix pre post trips Same) :
    ∃ G col val, setFromTriplets pre post (trips.map fun x => (x.1, x.2.1, (x.2.2 : ℝ))) = some G ∧ G.cols = post ∧ OnePerRow G pre trips col val := by
  classical
  have hrow : ∀ d < pre, ∃ x ∈ trips, x.1 = d := by
    intro d hd
    have := h.rows.symm.subset (List.mem_range.2 hd)
    obtain ⟨x, hx, e⟩ := List.mem_map.1 this
    exact ⟨x, hx, e⟩
  have hnd : (trips.map fun t => t.1).Nodup := h.rows.nodup_iff.2 List.nodup_range
  let tr : Nat → Nat × Nat × Int := fun d => if hd : d < pre then (hrow d hd).choose else (0, 0, 0)
  have htr : ∀ d < pre, tr d ∈ trips ∧ (tr d).1 = d := by
    intro d hd
    simp only [tr, dif_pos hd]
    exact ⟨(hrow d hd).choose_spec.1, (hrow d hd).choose_spec.2⟩
  refine ⟨⟨pre, post, fun i j => ((trips.map fun x => (x.1, x.2.1, (x.2.2 : ℝ))).map fun x => if x.1 = i ∧ x.2.1 = j then x.2.2 else 0).sum⟩,
    fun d => (tr d).2.1, fun d => (tr d).2.2, ?_, rfl, ?_, rfl, ?_, ?_⟩
  · unfold setFromTriplets
    rw [if_pos]
    rw [List.all_eq_true]
    intro x hx
    obtain ⟨y, hy, rfl⟩ := List.mem_map.1 hx
    have h1 : y.1 < pre := List.mem_range.1 (h.rows.subset (List.mem_map.2 ⟨y, hy, rfl⟩))
    simp [h1, h.cols y hy]
  · intro d hd
    have := htr d hd
    have e : (d, (tr d).2.1, (tr d).2.2) = tr d := Prod.ext this.2.symm rfl
    rw [e]; exact this.1
  · intro d hd
    exact h.cols _ (htr d hd).1
  · intro d hd j
    show (List.map _ (List.map _ trips)).sum = _
    rw [List.map_map, list_sum_single trips (List.Nodup.of_map _ hnd) _ (tr d), if_pos (htr d hd).1]
    · simp only [Function.comp_apply, (htr d hd).2, true_and]
      exact if_congr ⟨Eq.symm, Eq.symm⟩ rfl rfl
    · intro y hy hne
      rw [Function.comp_apply, if_neg]
      rintro ⟨h1, _⟩
      exact hne (List.inj_on_of_nodup_map hnd hy (htr d hd).1 (by rw [(htr d hd).2]; exact h1))

variable {R : Type} [Field R] [Algebra ℝ R]

/-- Application of the product. -/
theorem localCoeff_mul (A G T f : EMat _) (hT : A.mul G = some T) (trips col val) (hG : OnePerRow G A.cols trips col val) (nE P d n i : Nat) :
    localCoeff (ofReal R T) f nE P d n i =
      localCoeff (ofReal R A) ⟨A.cols, 1, fun k _ => ((val k : ℝ) • f.at' (col k) 0 : R)⟩ nE P d n i := by
  unfold EMat.mul at hT
  rw [if_pos hG.rows.symm] at hT
  obtain rfl := Option.some.inj hT
  unfold localCoeff ofReal
  simp only []
  simp only [map_sum, map_mul, sum_mul]
  rw [sum_comm]
  refine sum_congr rfl fun k hk => ?_
  have hk := mem_range.1 hk
  rw [sum_eq_single (col k)]
  · rw [hG.entry k hk, if_pos rfl, Algebra.smul_def]; ring
  · intro c _ hne
    rw [hG.entry k hk, if_neg hne]; simp
  · intro h; exact absurd (mem_range.2 (hG.lt k hk)) h

theorem discreteFunction_mul (A G T f : EMat _) (hT : A.mul G = some T) (trips col val) (hG : OnePerRow G A.cols trips col val) (nE P d n : Nat)
    (h : ℝ) (s : ℝ × ℝ) :
    discreteFunction (ofReal R T) f nE P d n h s =
      discreteFunction (ofReal R A) ⟨A.cols, 1, fun k _ => ((val k : ℝ) • f.at' (col k) 0 : R)⟩ nE P d n h s := by
  unfold discreteFunction
  simp only [localCoeff_mul A G T f hT trips col val hG]

/-! ### functions on an element -/

/-- The function with patchwise coefficients `g`. -/
theorem discreteFunction_element (A : EMat ℝ) (P M nP qx qy r d ro co : Nat) (t : Mesh.Tree ℝ) (a : Addr) (hpa : t.patch a = a.1) (ha : a.1 < nP)
    (hro : ro = d * ((P + 1) * (P + 1) * (nP * 4 ^ M))) (hco : co + nP * (splineDim qx (2 ^ M) r * splineDim qy (2 ^ M) r) ≤ A.cols)
    (hin : ∀ pa < nP, ∀ c i, i < (P + 1) * (P + 1) → c < splineDim qx (2 ^ M) r * splineDim qy (2 ^ M) r →
      A.at' (ro + (t.id a * ((P + 1) * (P + 1)) + i)) (co + (pa * (splineDim qx (2 ^ M) r * splineDim qy (2 ^ M) r) + c)) =
        if t.patch a = pa then cut (coef2 P qx qy (2 ^ M) r (posX a.2) (posY a.2) (c % splineDim qx (2 ^ M) r) (c / splineDim qx (2 ^ M) r) i) else 0)
    (hout : ∀ i < (P + 1) * (P + 1), ∀ c < A.cols, (c < co ∨ co + nP * (splineDim qx (2 ^ M) r * splineDim qy (2 ^ M) r) ≤ c) →
      A.at' (ro + (t.id a * ((P + 1) * (P + 1)) + i)) c = 0) (g : Nat → R) (h : ℝ) (s : ℝ × ℝ) :
    discreteFunction (ofReal R A) ⟨A.cols, 1, fun k _ => g k⟩ (nP * 4 ^ M) P d (t.id a) h s =
      (1 / h) • elementValue P qx qy (2 ^ M) r (posX a.2) (posY a.2)
        (fun c => g (co + (a.1 * (splineDim qx (2 ^ M) r * splineDim qy (2 ^ M) r) + c))) s := by
  unfold discreteFunction elementValue
  rw [Algebra.smul_def]
  congr 1
  refine sum_congr rfl fun i hi => ?_
  have hi := mem_range.1 hi
  unfold localCoeff ofReal
  simp only [sum_mul]
  set D := splineDim qx (2 ^ M) r * splineDim qy (2 ^ M) r with hD
  have row : d * ((P + 1) * (P + 1) * (nP * 4 ^ M)) + ((P + 1) * (P + 1) * t.id a + i) = ro + (t.id a * ((P + 1) * (P + 1)) + i) := by rw [hro]; ring
  rw [row]
  have split : ∀ F : Nat → R, (∀ c < A.cols, (c < co ∨ co + nP * D ≤ c) → F c = 0) → ∑ c ∈ range A.cols, F c = ∑ c ∈ range (nP * D), F (co + c) := by
    intro F hF
    obtain ⟨w, hw⟩ : ∃ w, A.cols = co + nP * D + w := ⟨A.cols - (co + nP * D), by omega⟩
    rw [hw, sum_range_add, sum_range_add, sum_eq_zero, sum_eq_zero (s := range w), zero_add, add_zero]
    · intro x hx; exact hF _ (by have := mem_range.1 hx; omega) (Or.inr (by omega))
    · intro x hx; exact hF _ (by have := mem_range.1 hx; omega) (Or.inl (by have := mem_range.1 hx; omega))
  rw [split, H2.sum_range_mul, sum_eq_single a.1]
  · refine sum_congr rfl fun c hc => ?_
    rw [hin a.1 ha c i hi (mem_range.1 hc), if_pos hpa, Algebra.smul_def, map_mul]; ring
  · intro pa hpa' hne
    refine sum_eq_zero fun c hc => ?_
    rw [hin pa (mem_range.1 hpa') c i hi (mem_range.1 hc), if_neg (by rw [hpa]; exact Ne.symm hne)]; simp
  · intro h; exact absurd (mem_range.2 ha) h
  · intro c hc h
    rw [hout i hi c hc h]; simp

/-- Combination of two functions along an edge. -/
theorem lineValue_combine (P q n r A : Nat) (g g' : Nat → R) (u v : ℝ) (s : ℝ) (h : ∀ d < splineDim q n r, u • g d + v • g' d = 0) :
    u • lineValue P q n r A g s + v • lineValue P q n r A g' s = 0 := by
  unfold lineValue
  rw [smul_sum, smul_sum, ← sum_add_distrib]
  refine sum_eq_zero fun j _ => ?_
  rw [smul_sum, smul_sum, ← sum_add_distrib]
  refine sum_eq_zero fun d hd => ?_
  rw [smul_comm u, smul_comm v, ← smul_add, h d (mem_range.1 hd), smul_zero]

/-- Matching coefficients give matching values on both sides of a patch edge. -/
theorem interface_values (P M r qx qy qx' qy' i k : Nat) (a b : Addr) (hqx : 1 ≤ qx) (hqy : 1 ≤ qy) (hx : qx = P + 1 ∨ qx = P) (hy : qy = P + 1 ∨ qy = P)
    (hqx' : 1 ≤ qx') (hqy' : 1 ≤ qy') (hx' : qx' = P + 1 ∨ qx' = P) (hy' : qy' = P + 1 ∨ qy' = P) (hr : 1 ≤ r)
    (hXa : posX a.2 < 2 ^ M) (hYa : posY a.2 < 2 ^ M) (hXb : posX b.2 < 2 ^ M) (hYb : posY b.2 < 2 ^ M)
    (ha : OnEdge M i a) (hb : OnEdge M k b) (hq : (if i = 0 ∨ i = 2 then qx else qy) = if k = 0 ∨ k = 2 then qx' else qy')
    (hal : alongEdge M i a + alongEdge M k b + 1 = 2 ^ M) (g g' : Nat → R) (u v s : ℝ)
    (hg : ∀ d < splineDim (if i = 0 ∨ i = 2 then qx else qy) (2 ^ M) r,
      u • g (edgeY (splineDim qy (2 ^ M) r) i d * splineDim qx (2 ^ M) r + edgeX (splineDim qx (2 ^ M) r) i d) +
      v • g' (edgeY (splineDim qy' (2 ^ M) r) k (splineDim (if i = 0 ∨ i = 2 then qx else qy) (2 ^ M) r - 1 - d) * splineDim qx' (2 ^ M) r +
        edgeX (splineDim qx' (2 ^ M) r) k (splineDim (if i = 0 ∨ i = 2 then qx else qy) (2 ^ M) r - 1 - d)) = 0) :
    u • elementValue P qx qy (2 ^ M) r (posX a.2) (posY a.2) g (edgePoint i s) +
      v • elementValue P qx' qy' (2 ^ M) r (posX b.2) (posY b.2) g' (edgePoint k (1 - s)) = 0 := by
  rw [edgeValue_eq P qx qy M r i a hqx hqy hx hy hr hXa hYa ha, edgeValue_eq P qx' qy' M r k b hqx' hqy' hx' hy' hr hXb hYb hb, ← hq]
  rw [lineValue_reverse P _ _ r _ (by split_ifs <;> assumption) (by split_ifs <;> assumption) hr (by omega),
    show 2 ^ M - 1 - alongEdge M k b = alongEdge M i a by omega]
  exact lineValue_combine P _ _ r _ _ _ u v s hg

/-- Opposite edges of neighbours in a patch, in the direction normal to the edge. -/
theorem grid_values (P M r qx qy i : Nat) (a b : Addr) (hqx : 1 ≤ qx) (hx : qx = P + 1 ∨ qx = P) (hy : qy = P + 1 ∨ qy = P) (hr : 1 ≤ r)
    (hrq : r ≤ (if i = 1 ∨ i = 3 then qx else qy) - 1)
    (hXa : posX a.2 < 2 ^ M) (hYa : posY a.2 < 2 ^ M) (hXb : posX b.2 < 2 ^ M) (hYb : posY b.2 < 2 ^ M) (h : GridNeighbour i a b) (g : Nat → R) (s : ℝ) :
    elementValue P qx qy (2 ^ M) r (posX a.2) (posY a.2) g (edgePoint i s) =
      elementValue P qx qy (2 ^ M) r (posX b.2) (posY b.2) g (edgePoint ((i + 2) % 4) (1 - s)) := by
  rcases h with ⟨rfl, h1, h2⟩ | ⟨rfl, h1, h2⟩ | ⟨rfl, h1, h2⟩ | ⟨rfl, h1, h2⟩
  · have := neighbour_y P qx qy (2 ^ M) r (posX b.2) (posY b.2) hqx hy hr (by simpa using hrq) (by omega) g s
    rw [h2, h1] at this
    rw [h1]
    simpa [edgePoint] using this.symm
  · have := neighbour_x P qx qy (2 ^ M) r (posX a.2) (posY a.2) hx hr (by simpa using hrq) (by omega) g s
    rw [← h1, ← h2] at this
    rw [h2] at this ⊢
    simpa [edgePoint] using this
  · have := neighbour_y P qx qy (2 ^ M) r (posX a.2) (posY a.2) hqx hy hr (by simpa using hrq) (by omega) g (1 - s)
    rw [← h2] at this
    rw [h1]
    simpa [edgePoint] using this
  · have := neighbour_x P qx qy (2 ^ M) r (posX b.2) (posY b.2) hx hr (by simpa using hrq) (by omega) g (1 - s)
    rw [h1, h2] at this
    rw [h2]
    simpa [edgePoint] using this.symm

/-- Under the assumptions on the patches, facing elements of different patches traverse the edge in opposite directions. -/
theorem facing_opposite {P M : Nat} (hc : ConformingPatches near corner P) (ho : OrientedPatches corner P) {i k : Nat} {a b : Addr} (ha : a.1 < P) (hb : b.1 < P)
    (hi : i < 4) (hk : k < 4) (hab : a.1 ≠ b.1) (h : InterfaceNeighbour corner M i k a b) :
    patchEdge corner a.1 i = patchEdge corner b.1 k ∧ alongEdge M i a + alongEdge M k b + 1 = 2 ^ M := by
  obtain ⟨_, _, ⟨h1, h2, h3⟩ | ⟨h1, h2, h3⟩⟩ := h
  · have hE : patchEdge corner a.1 i = patchEdge corner b.1 k := by unfold patchEdge; rw [h1, h2]
    have := ho a.1 ha b.1 hb hab i hi k hk hE
    have := hc.distinct b.1 hb k hk ((k + 1) % 4) (Nat.mod_lt _ (by omega)) (h1.symm.trans this.1)
    omega
  · refine ⟨?_, h3⟩
    unfold patchEdge
    rw [h1, h2]; exact Sym2.eq_swap

/-! ### continuous spaces -/

theorem assemble_nonempty (pre : Nat) (ids : List Ident) (x) (h : assembleGlueMatrix pre ids = some x) : ∀ d ∈ ids, d.dofs ≠ [] := by
  unfold assembleGlueMatrix at h
  rw [Option.bind_eq_bind, Option.bind_eq_some_iff] at h
  obtain ⟨m, h, -⟩ := h
  generalize (((fun _ => false), (fun _ => false), 0) : (Nat → Bool) × (Nat → Bool) × Nat) = st at h
  induction ids generalizing st with
  | nil => simp
  | cons d ids ih =>
    rw [List.foldlM_cons, Option.bind_eq_bind, Option.bind_eq_some_iff] at h
    obtain ⟨st', h1, h2⟩ := h
    intro e he
    rcases List.mem_cons.1 he with rfl | he
    · intro hnil
      unfold markStep at h1
      rw [hnil] at h1
      simp at h1
    · exact ih st' h2 e he

theorem cleanup_nonempty (l ids : List Ident) (h : cleanup l = some ids) (hne : ∀ d ∈ ids, d.dofs ≠ []) : ids = l.filter fun d => d.dofs ≠ [] := by
  induction l using cleanup.induct generalizing ids with
  | case1 => simp [cleanup] at h; subst h; rfl
  | case2 d hd => simp [cleanup, hd] at h
  | case3 d hd r rest ih =>
    simp only [cleanup, hd, if_true] at h
    obtain ⟨ids', h1, rfl⟩ := Option.map_eq_some_iff.1 h
    have := ih ids' h1 fun e he => hne e (List.mem_cons_of_mem _ he)
    have hr := hne r List.mem_cons_self
    simp [hd, hr, this]
  | case4 d rest hd ih =>
    rw [cleanup.eq_def] at h
    simp only [hd, if_false] at h
    obtain ⟨ids', h1, rfl⟩ := Option.map_eq_some_iff.1 h
    have := ih ids' h1 fun e he => hne e (List.mem_cons_of_mem _ he)
    simp [hd, this]

/-- What a successful computation for continuous spaces consists of. -/
theorem cont_facts (junk : Nat → ℝ) (junkM : Nat → Nat → ℝ) (solve) (hs : SolvesSystems solve) (P M nP rep : Nat) (hnP : 0 < nP)
    (hP0 : 0 < P) (hP : P ≤ 19) (hrep : 1 ≤ rep) (hrP : rep ≤ P) (hc : ConformingPatches near corner nP) (ho : OrientedPatches corner nP)
    (t : Mesh.Tree ℝ) (ht : initElementTree near corner nP M = some t) (T : EMat ℝ) (hT : transformationCont junk junkM solve t P M nP rep = some T) :
    ∃ A G trips col val, makeMatrixCont junk junkM solve t P M nP rep = some A ∧ A.mul G = some T ∧
      A.cols = nP * (splineDim (P + 1) (2 ^ M) rep * splineDim (P + 1) (2 ^ M) rep) ∧ OnePerRow G A.cols trips col val ∧
      GlueMatrix A.cols G.cols trips (Linked corner nP (splineDim (P + 1) (2 ^ M) rep)) ∧ (∀ d < A.cols, val d = 1) ∧
      ∀ a, IsNode nP M a → ∀ pa c i, i < (P + 1) * (P + 1) → c < splineDim (P + 1) (2 ^ M) rep * splineDim (P + 1) (2 ^ M) rep →
        A.at' (t.id a * ((P + 1) * (P + 1)) + i) (pa * (splineDim (P + 1) (2 ^ M) rep * splineDim (P + 1) (2 ^ M) rep) + c) =
        if t.patch a = pa then cut (coef2 P (P + 1) (P + 1) (2 ^ M) rep (posX a.2) (posY a.2)
          (c % splineDim (P + 1) (2 ^ M) rep) (c / splineDim (P + 1) (2 ^ M) rep) i) else 0 := by
  obtain ⟨A, h1, h2, h3, h4⟩ := disc_matrix near corner junk junkM solve hs P M nP rep hnP hP hrep t ht
  rw [show min rep (P + 1) = rep by omega] at h3 h4
  have hA : makeMatrixCont junk junkM solve t P M nP rep = some A := by rw [makeMatrixCont, if_pos ⟨hP0, hrP⟩]; exact h1
  have hn : splineDim (P + 1) (2 ^ M) rep = oneDDim P rep M := by unfold splineDim oneDDim; rw [Nat.mul_comm]
  have hcols : A.cols = nP * (splineDim (P + 1) (2 ^ M) rep * splineDim (P + 1) (2 ^ M) rep) := h3
  unfold transformationCont at hT
  simp only [hA, Option.bind_eq_bind, Option.bind_some] at hT
  rw [Option.bind_eq_some_iff] at hT
  obtain ⟨ids, i1, hT⟩ := hT
  rw [Option.bind_eq_some_iff] at hT
  obtain ⟨G, i2, hT⟩ := hT
  unfold glueMat at i2
  rw [Option.bind_eq_bind, Option.bind_eq_some_iff] at i2
  obtain ⟨g, i3, i2⟩ := i2
  obtain ⟨t', st, j1, j2, j3⟩ := C32_glue_partial (K := ℝ) near corner nP M P rep hnP hP0 hc ho
  obtain rfl : t' = t := Option.some.inj (j1.symm.trans ht)
  rw [← hn, ← hcols] at j2 j3
  have hid : cleanup st.out = some ids := by
    have := i1
    unfold makeIdentificationCont at this
    rw [if_neg (by omega), ← hn, j2] at this
    exact this
  have hfil := cleanup_nonempty st.out ids hid (assemble_nonempty _ _ _ i3)
  obtain ⟨ids', post, trips, k1, k2, k3, k4, k5⟩ := j3 ((C32_cleanup _).1 (by rw [hid, hfil]))
  obtain rfl : ids' = ids := Option.some.inj (k1.symm.trans i1)
  obtain rfl : (post, trips) = g := Option.some.inj (k3.symm.trans i3)
  obtain ⟨G', col, val, l1, l2, l3⟩ := onePerRow _ _ _ _ k4
  obtain rfl : G' = G := Option.some.inj (l1.symm.trans i2)
  exact ⟨A, G', trips, col, val, hA, hT, hcols, l3, by rw [l2]; exact k4, fun d hd => k5 _ (l3.mem d hd), h4⟩

/-- C64 (continuous spaces): whenever the transformation matrix of a continuous space (degree `P`, knots repeated at most `P` times) on a
conforming, consistently oriented patch collection has been computed, every discrete function is continuous: it has the same values on both
sides of every edge between two elements, within the patches and across the patch interfaces.  This holds for all degrees, in spite of the
tolerance of the projector. -/
theorem C64_continuous (junk : Nat → ℝ) (junkM : Nat → Nat → ℝ) (solve) (hs : SolvesSystems solve) (P M nP rep : Nat) (hnP : 0 < nP)
    (hP0 : 0 < P) (hP : P ≤ 19) (hrep : 1 ≤ rep) (hrP : rep ≤ P) (hc : ConformingPatches near corner nP) (ho : OrientedPatches corner nP)
    (t : Mesh.Tree ℝ) (ht : initElementTree near corner nP M = some t) (T : EMat ℝ) (hT : transformationCont junk junkM solve t P M nP rep = some T)
    (f : EMat R) (a b : Addr) (ha : IsNode nP M a) (hb : IsNode nP M b) (i k : Nat) (h : Facing corner M i k a b) (s : ℝ) :
    discreteFunction (ofReal R T) f (nP * 4 ^ M) P 0 (t.id a) (1 / 2 ^ M) (edgePoint i s) =
      discreteFunction (ofReal R T) f (nP * 4 ^ M) P 0 (t.id b) (1 / 2 ^ M) (edgePoint k (1 - s)) := by
  obtain ⟨A, G, trips, col, val, -, c2, c3, c4, c5, c6, c7⟩ := cont_facts near corner junk junkM solve hs P M nP rep hnP hP0 hP hrep hrP hc ho t ht T hT
  obtain ⟨t', h1, h2, -⟩ := tree_facts (K := ℝ) near corner nP M hnP
  obtain rfl : t' = t := Option.some.inj (h1.symm.trans ht)
  rw [discreteFunction_mul A G T f c2 trips col val c4, discreteFunction_mul A G T f c2 trips col val c4]
  have val' : ∀ a, IsNode nP M a → ∀ (g : Nat → R) s, discreteFunction (ofReal R A) ⟨A.cols, 1, fun k _ => g k⟩ (nP * 4 ^ M) P 0 (t'.id a) (1 / 2 ^ M) s = _ := fun a ha g s =>
    discreteFunction_element A P M nP (P + 1) (P + 1) rep 0 0 0 t' a ((h2 M le_rfl a (mem_leaves.2 ha)).2.2.1) ha.1 (by simp) (by rw [c3]; omega)
      (by intro pa _ c i hi hc; rw [Nat.zero_add, Nat.zero_add]; exact c7 a ha pa c i hi hc) (by intro i _ c hc h; omega) g (1 / 2 ^ M) s
  rw [val' a ha, val' b hb]
  congr 1
  have pa := pos_lt a.2
  have pb := pos_lt b.2
  rw [ha.2.1] at pa
  rw [hb.2.1] at pb
  obtain ⟨hi, hk, ⟨hab, hN⟩ | ⟨hab, rfl, hN⟩⟩ := h
  · obtain ⟨hE, hal⟩ := facing_opposite near corner hc ho ha.1 hb.1 hi hk hab hN
    have := interface_values (R := R) P M rep (P + 1) (P + 1) (P + 1) (P + 1) i k a b (by omega) (by omega) (Or.inl rfl) (Or.inl rfl) (by omega) (by omega) (Or.inl rfl)
      (Or.inl rfl) hrep pa.1 pa.2 pb.1 pb.2 hN.1 hN.2.1 (by simp) hal
      (fun c => (val (0 + (a.1 * (splineDim (P + 1) (2 ^ M) rep * splineDim (P + 1) (2 ^ M) rep) + c)) : ℝ) •
        f.at' (col (0 + (a.1 * (splineDim (P + 1) (2 ^ M) rep * splineDim (P + 1) (2 ^ M) rep) + c))) 0)
      (fun c => (val (0 + (b.1 * (splineDim (P + 1) (2 ^ M) rep * splineDim (P + 1) (2 ^ M) rep) + c)) : ℝ) •
        f.at' (col (0 + (b.1 * (splineDim (P + 1) (2 ^ M) rep * splineDim (P + 1) (2 ^ M) rep) + c))) 0) 1 (-1) s ?_
    · rw [one_smul, neg_one_smul, ← sub_eq_add_neg] at this
      exact sub_eq_zero.1 this
    · simp only [ite_self]
      intro d hd
      set n := splineDim (P + 1) (2 ^ M) rep with hn
      rw [one_smul, neg_one_smul, ← sub_eq_add_neg, sub_eq_zero]
      have e1 : ∀ p i d, 0 + (p * (n * n) + (edgeY n i d * n + edgeX n i d)) = edgeDof n p i d := by
        intro p i d; unfold edgeDof dofIndex; ring
      rw [e1, e1]
      have lt : ∀ p i d, p < nP → i < 4 → d < n → edgeDof n p i d < A.cols := by
        intro p i d hp hi hd
        have := edgePos_lt (n := n) (by omega) hi hd
        rw [c3]
        unfold edgeDof dofIndex
        have h1 : (p + 1) * (n * n) ≤ nP * (n * n) := Nat.mul_le_mul_right _ hp
        have h2 : (edgeY n i d + 1) * n ≤ n * n := Nat.mul_le_mul_right _ this.2
        rw [Nat.add_mul, Nat.one_mul] at h1 h2
        omega
      have l1 := lt a.1 i d ha.1 hi hd
      have l2 := lt b.1 k (n - 1 - d) hb.1 hk (by omega)
      rw [c6 _ l1, c6 _ l2]
      have := (c5.same _ (c4.mem _ l1) _ (c4.mem _ l2)).2 (Or.inr (Relation.EqvGen.rel _ _
        ⟨a.1, b.1, i, k, d, ha.1, hb.1, hab, hi, hk, hE, hd, rfl, rfl⟩))
      simp only at this
      rw [this]
  · rw [← hab]
    exact grid_values P M rep (P + 1) (P + 1) i a b (by omega) (Or.inl rfl) (Or.inl rfl) hrep (by simpa using hrP) pa.1 pa.2 pb.1 pb.2 hN _ s

/-- C64 (continuous spaces, completeness): nothing but continuity is imposed.  For patchwise spline coefficients `g` which agree on linked
dofs there is a vector of dofs with the same discrete function on every element. -/
theorem C64_continuous_complete (junk : Nat → ℝ) (junkM : Nat → Nat → ℝ) (solve) (hs : SolvesSystems solve) (P M nP rep : Nat) (hnP : 0 < nP)
    (hP0 : 0 < P) (hP : P ≤ 19) (hrep : 1 ≤ rep) (hrP : rep ≤ P) (hc : ConformingPatches near corner nP) (ho : OrientedPatches corner nP)
    (t : Mesh.Tree ℝ) (ht : initElementTree near corner nP M = some t) (T : EMat ℝ) (hT : transformationCont junk junkM solve t P M nP rep = some T)
    (g : Nat → R) (hg : ∀ d e, Linked corner nP (P + 1 + (2 ^ M - 1) * rep) d e → g d = g e) :
    ∃ A, makeMatrixCont junk junkM solve t P M nP rep = some A ∧ ∃ f : EMat R, f.rows = T.cols ∧ f.cols = 1 ∧
      ∀ (n : Nat) (h : ℝ) (s : ℝ × ℝ), discreteFunction (ofReal R T) f (nP * 4 ^ M) P 0 n h s =
        discreteFunction (ofReal R A) ⟨A.cols, 1, fun d _ => g d⟩ (nP * 4 ^ M) P 0 n h s := by
  classical
  obtain ⟨A, G, trips, col, val, c1, c2, c3, c4, c5, c6, c7⟩ := cont_facts near corner junk junkM solve hs P M nP rep hnP hP0 hP hrep hrP hc ho t ht T hT
  refine ⟨A, c1, ⟨T.cols, 1, fun c _ => if h : ∃ d < A.cols, col d = c then g h.choose else 0⟩, rfl, rfl, ?_⟩
  intro n h s
  rw [discreteFunction_mul A G T _ c2 trips col val c4]
  unfold discreteFunction localCoeff ofReal
  simp only []
  congr 1
  refine sum_congr rfl fun i _ => ?_
  congr 1
  refine sum_congr rfl fun d hd => ?_
  have hd := mem_range.1 hd
  have ex : ∃ e < A.cols, col e = col d := ⟨d, hd, rfl⟩
  rw [c6 d hd, dif_pos ex]
  obtain ⟨e1, e2⟩ := ex.choose_spec
  rcases (c5.same _ (c4.mem _ e1) _ (c4.mem _ hd)).1 e2 with e | e
  · simp only at e
    rw [e]; simp
  · rw [hg _ _ e]; simp

/-- C64 (continuous spaces, existence): the transformation matrix can be computed exactly if the sets emptied by merging are isolated
(see `C32_cleanup`); the product of the matrices is always defined. -/
theorem C64_continuous_exists (junk : Nat → ℝ) (junkM : Nat → Nat → ℝ) (solve) (hs : SolvesSystems solve) (P M nP rep : Nat) (hnP : 0 < nP)
    (hP0 : 0 < P) (hP : P ≤ 19) (hrep : 1 ≤ rep) (hrP : rep ≤ P) (hc : ConformingPatches near corner nP) (ho : OrientedPatches corner nP)
    (t : Mesh.Tree ℝ) (ht : initElementTree near corner nP M = some t) :
    let n := oneDDim P rep M
    ∃ st : Store, identifyCont n (nP * (n * n)) (patchTopologyInfo t) = some st ∧
      ((∃ T, transformationCont junk junkM solve t P M nP rep = some T) ↔
        ∀ (k : Nat) (d : Ident), st.out[k]? = some d → d.dofs = [] → ∃ e : Ident, st.out[k + 1]? = some e ∧ e.dofs ≠ []) := by
  intro n
  obtain ⟨t', st, j1, j2, j3⟩ := C32_glue_partial (K := ℝ) near corner nP M P rep hnP hP0 hc ho
  obtain rfl : t' = t := Option.some.inj (j1.symm.trans ht)
  obtain ⟨A, h1, h2, h3, h4⟩ := disc_matrix near corner junk junkM solve hs P M nP rep hnP hP hrep t' ht
  rw [show min rep (P + 1) = rep by omega] at h3
  have hA : makeMatrixCont junk junkM solve t' P M nP rep = some A := by rw [makeMatrixCont, if_pos ⟨hP0, hrP⟩]; exact h1
  have hcols : A.cols = nP * (n * n) := by rw [h3, Nat.mul_comm (2 ^ M - 1)]; rfl
  refine ⟨st, j2, ?_, ?_⟩
  · rintro ⟨T, hT⟩
    unfold transformationCont at hT
    simp only [hA, Option.bind_eq_bind, Option.bind_some] at hT
    rw [Option.bind_eq_some_iff] at hT
    obtain ⟨ids, i1, hT⟩ := hT
    rw [Option.bind_eq_some_iff] at hT
    obtain ⟨G, i2, hT⟩ := hT
    unfold glueMat at i2
    rw [Option.bind_eq_bind, Option.bind_eq_some_iff] at i2
    obtain ⟨g, i3, i2⟩ := i2
    have hid : cleanup st.out = some ids := by
      have := i1
      unfold makeIdentificationCont at this
      rw [if_neg (by omega), hcols, j2] at this
      exact this
    have hfil := cleanup_nonempty st.out ids hid (assemble_nonempty _ _ _ i3)
    exact (C32_cleanup _).1 (by rw [hid, hfil])
  · intro hcl
    obtain ⟨ids, post, trips, k1, k2, k3, k4, k5⟩ := j3 hcl
    obtain ⟨G, col, val, l1, l2, l3⟩ := onePerRow _ _ _ _ k4
    refine ⟨⟨A.rows, G.cols, fun i j => ∑ k ∈ range A.cols, A.at' i k * G.at' k j⟩, ?_⟩
    unfold transformationCont
    simp only [hA, Option.bind_eq_bind, Option.bind_some, hcols, n, k1, glueMat, k3, l1]
    rw [EMat.mul, if_pos (by rw [hcols, l3.rows])]
    simp only [hcols, n]

/-! ### divergence conforming spaces -/

/-- What the computation for divergence conforming spaces consists of. -/
theorem div_facts (junk : Nat → ℝ) (junkM : Nat → Nat → ℝ) (solve) (hs : SolvesSystems solve) (P M nP rep : Nat) (hnP : 0 < nP)
    (hP0 : 0 < P) (hP : P ≤ 19) (hrep : 1 ≤ rep) (hrP : rep ≤ P) (hc : ConformingPatches near corner nP)
    (t : Mesh.Tree ℝ) (ht : initElementTree near corner nP M = some t) :
    let m := P + rep * (2 ^ M - 1)
    ∃ A G T trips col val, makeMatrixDiv junk junkM solve t P M nP rep = some A ∧ transformationDiv junk junkM solve t P M nP rep = some T ∧
      A.mul G = some T ∧ A.rows = 2 * (nP * 4 ^ M * ((P + 1) * (P + 1))) ∧
      A.cols = 2 * (nP * (m * (m + 1))) ∧ OnePerRow G A.cols trips col val ∧
      GlueMatrix A.cols G.cols trips (fun d e => ∃ p q i k s, NormalPaired corner nP m p i q k s d e) ∧
      (∀ x ∈ trips, ∀ y ∈ trips, ∀ p q i k s, NormalPaired corner nP m p i q k s x.1 y.1 → outwardSign i * x.2.2 + outwardSign k * y.2.2 = 0) ∧
      (∀ x ∈ trips, x.2.2 = 1 ∨ x.2.2 = -1) := by
  intro m
  obtain ⟨A, h1, h2, h3, -⟩ := div_matrix near corner junk junkM solve hs P M nP rep hnP hP0 hP hrep hrP t ht
  have hm : 0 < m := by simp only [m]; omega
  obtain ⟨t', ids, post, trips, k1, k2, k3, k4, k5, k6⟩ := C33_flux (K := ℝ) near corner nP M P rep hnP hm hc
  obtain rfl : t' = t := Option.some.inj (k1.symm.trans ht)
  have hcols : A.cols = 2 * (nP * (m * (m + 1))) := by
    rw [h3, show P + 1 + (2 ^ M - 1) * rep = m + 1 by simp only [m]; ring, show P + (2 ^ M - 1) * rep = m by simp only [m]; ring]; ring
  obtain ⟨G, col, val, l1, l2, l3⟩ := onePerRow _ _ _ _ k4
  refine ⟨A, G, ⟨A.rows, G.cols, fun i j => ∑ k ∈ range A.cols, A.at' i k * G.at' k j⟩, trips, col, val, h1, ?_, ?_, h2, hcols, ?_, ?_, k5, fun x hx => (k6 x hx).1⟩
  · unfold transformationDiv
    simp only [h1, Option.bind_eq_bind, Option.bind_some, hcols, m, k2, glueMat, k3, l1]
    rw [EMat.mul, if_pos (by rw [hcols, l3.rows])]
    simp only [hcols, m]
  · rw [EMat.mul, if_pos (by rw [hcols, l3.rows])]
  · rw [hcols]; exact l3
  · rw [hcols, l2]; exact k4

/-- The normal component on an element. -/
theorem normal_value (junk : Nat → ℝ) (junkM : Nat → Nat → ℝ) (solve) (hs : SolvesSystems solve) (P M nP rep : Nat) (hnP : 0 < nP)
    (hP0 : 0 < P) (hP : P ≤ 19) (hrep : 1 ≤ rep) (hrP : rep ≤ P)
    (t : Mesh.Tree ℝ) (ht : initElementTree near corner nP M = some t) (A : EMat ℝ) (hA : makeMatrixDiv junk junkM solve t P M nP rep = some A)
    (a : Addr) (ha : IsNode nP M a) (g : Nat → R) (s : ℝ × ℝ) (i : Nat) :
    discreteFunction (ofReal R A) ⟨A.cols, 1, fun k _ => g k⟩ (nP * 4 ^ M) P (normalComponent i) (t.id a) (1 / 2 ^ M) s =
      (1 / (1 / 2 ^ M) : ℝ) • elementValue P (if i = 1 ∨ i = 3 then P + 1 else P) (if i = 1 ∨ i = 3 then P else P + 1) (2 ^ M) rep (posX a.2) (posY a.2)
        (fun c => g ((if i = 1 ∨ i = 3 then 0 else nP * (splineDim (P + 1) (2 ^ M) rep * splineDim P (2 ^ M) rep)) +
          (a.1 * (splineDim (P + 1) (2 ^ M) rep * splineDim P (2 ^ M) rep) + c))) s := by
  obtain ⟨A', h1, h2, h3, h4, h5, h6⟩ := div_matrix near corner junk junkM solve hs P M nP rep hnP hP0 hP hrep hrP t ht
  obtain rfl : A' = A := Option.some.inj (h1.symm.trans hA)
  obtain ⟨t', g1, g2, g3, -⟩ := tree_facts (K := ℝ) near corner nP M hnP
  obtain rfl : t' = t := Option.some.inj (g1.symm.trans ht)
  have hpa := (g2 M le_rfl a (mem_leaves.2 ha)).2.2.1
  have hid : t'.id a < nP * 4 ^ M := by
    rw [(g2 M le_rfl a (mem_leaves.2 ha)).1]
    exact pathId_lt (mem_leaves.2 ha)
  have hrow : ∀ i < (P + 1) * (P + 1), t'.id a * ((P + 1) * (P + 1)) + i < nP * 4 ^ M * ((P + 1) * (P + 1)) := by
    intro i hi
    have : (t'.id a + 1) * ((P + 1) * (P + 1)) ≤ nP * 4 ^ M * ((P + 1) * (P + 1)) := Nat.mul_le_mul_right _ hid
    rw [Nat.add_mul, Nat.one_mul] at this
    omega
  have hdim : (P + 1 + (2 ^ M - 1) * rep) * (P + (2 ^ M - 1) * rep) = splineDim (P + 1) (2 ^ M) rep * splineDim P (2 ^ M) rep := rfl
  rw [hdim] at h3 h4 h6
  unfold normalComponent
  by_cases hi : i = 1 ∨ i = 3
  · simp only [if_pos hi]
    exact discreteFunction_element A' P M nP (P + 1) P rep 0 0 0 t' a hpa ha.1 (by simp) (by rw [h3]; omega) (h5 a ha) (by
      intro i hi c hc h
      rw [Nat.zero_add]
      exact h4 _ _ (Or.inl ⟨hrow i hi, by omega⟩)) g _ s
  · simp only [if_neg hi]
    have := discreteFunction_element A' P M nP P (P + 1) rep 1 (nP * 4 ^ M * ((P + 1) * (P + 1)))
      (nP * (splineDim (P + 1) (2 ^ M) rep * splineDim P (2 ^ M) rep)) t' a hpa ha.1 (by ring)
      (by rw [h3, Nat.mul_comm (splineDim P (2 ^ M) rep)]; omega) (h6 a ha) (by
      intro i hi c hc h
      rw [Nat.mul_comm (splineDim P (2 ^ M) rep)] at h
      exact h4 _ _ (Or.inr ⟨by omega, by omega⟩)) g (1 / 2 ^ M) s
    rw [Nat.mul_comm (splineDim P (2 ^ M) rep)] at this
    exact this

/-- C64 (divergence conforming spaces): on every conforming, consistently oriented patch collection the transformation matrix exists, and the
normal component of every discrete field is continuous: what flows out of an element across an edge flows into the element on the other
side, within the patches and across the patch interfaces.  This holds for all degrees, in spite of the tolerance of the projector. -/
theorem C64_divergence (junk : Nat → ℝ) (junkM : Nat → Nat → ℝ) (solve) (hs : SolvesSystems solve) (P M nP rep : Nat) (hnP : 0 < nP)
    (hP0 : 0 < P) (hP : P ≤ 19) (hrep : 1 ≤ rep) (hrP : rep ≤ P) (hc : ConformingPatches near corner nP) (ho : OrientedPatches corner nP)
    (t : Mesh.Tree ℝ) (ht : initElementTree near corner nP M = some t) :
    ∃ T, transformationDiv junk junkM solve t P M nP rep = some T ∧ T.rows = 2 * (nP * 4 ^ M * ((P + 1) * (P + 1))) ∧
      ∀ (f : EMat R) (a b : Addr), IsNode nP M a → IsNode nP M b → ∀ i k, Facing corner M i k a b → ∀ s : ℝ,
        (outwardSign i : ℝ) • discreteFunction (ofReal R T) f (nP * 4 ^ M) P (normalComponent i) (t.id a) (1 / 2 ^ M) (edgePoint i s) +
        (outwardSign k : ℝ) • discreteFunction (ofReal R T) f (nP * 4 ^ M) P (normalComponent k) (t.id b) (1 / 2 ^ M) (edgePoint k (1 - s)) = 0 := by
  obtain ⟨A, G, T, trips, col, val, c1, c2, c3, c3', c4, c5, c6, c7, c8⟩ := div_facts near corner junk junkM solve hs P M nP rep hnP hP0 hP hrep hrP hc t ht
  refine ⟨T, c2, ?_, ?_⟩
  · unfold EMat.mul at c3
    rw [if_pos (c5.rows.symm)] at c3
    rw [← Option.some.inj c3]; exact c3'
  intro f a b ha hb i k h s
  rw [discreteFunction_mul A G T f c3 trips col val c5, discreteFunction_mul A G T f c3 trips col val c5,
    normal_value near corner junk junkM solve hs P M nP rep hnP hP0 hP hrep hrP t ht A c1 a ha _ _ i,
    normal_value near corner junk junkM solve hs P M nP rep hnP hP0 hP hrep hrP t ht A c1 b hb _ _ k, smul_comm _ (1 / (1 / 2 ^ M) : ℝ),
    smul_comm _ (1 / (1 / 2 ^ M) : ℝ), ← smul_add]
  refine smul_eq_zero_of_right _ ?_
  have pa := pos_lt a.2
  have pb := pos_lt b.2
  rw [ha.2.1] at pa
  rw [hb.2.1] at pb
  have hl : splineDim (P + 1) (2 ^ M) rep = P + rep * (2 ^ M - 1) + 1 := by unfold splineDim; ring
  have hsm : splineDim P (2 ^ M) rep = P + rep * (2 ^ M - 1) := by unfold splineDim; ring
  obtain ⟨hi, hk, ⟨hab, hN⟩ | ⟨hab, rfl, hN⟩⟩ := h
  · obtain ⟨hE, hal⟩ := facing_opposite near corner hc ho ha.1 hb.1 hi hk hab hN
    have tang : ∀ i < 4, (if i = 0 ∨ i = 2 then (if i = 1 ∨ i = 3 then P + 1 else P) else (if i = 1 ∨ i = 3 then P else P + 1)) = P := by
      intro i hi
      rcases four_cases hi with rfl | rfl | rfl | rfl <;> simp
    refine interface_values P M rep _ _ _ _ i k a b ?_ ?_ ?_ ?_ ?_ ?_ ?_ ?_ hrep pa.1 pa.2 pb.1 pb.2 hN.1 hN.2.1 ?_ hal _ _ _ _ s ?_
    · split_ifs <;> omega
    · split_ifs <;> omega
    · split_ifs <;> simp
    · split_ifs <;> simp
    · split_ifs <;> omega
    · split_ifs <;> omega
    · split_ifs <;> simp
    · split_ifs <;> simp
    · rw [tang i hi, tang k hk]
    · rw [tang i hi]
      intro d hd
      set m := P + rep * (2 ^ M - 1) with hmdef
      have idx : ∀ i < 4, ∀ p d, (if i = 1 ∨ i = 3 then 0 else nP * (splineDim (P + 1) (2 ^ M) rep * splineDim P (2 ^ M) rep)) +
          (p * (splineDim (P + 1) (2 ^ M) rep * splineDim P (2 ^ M) rep) +
            (edgeY (splineDim (if i = 1 ∨ i = 3 then P else P + 1) (2 ^ M) rep) i d * splineDim (if i = 1 ∨ i = 3 then P + 1 else P) (2 ^ M) rep +
              edgeX (splineDim (if i = 1 ∨ i = 3 then P + 1 else P) (2 ^ M) rep) i d)) = normalDof m nP p i d := by
        intro i hi p d
        unfold normalDof
        by_cases h : i = 1 ∨ i = 3
        · simp only [if_pos h, hl, hsm]; ring
        · simp only [if_neg h, hl, hsm]; ring
      rw [idx i hi, idx k hk, hsm]
      rw [hsm] at hd
      have np : NormalPaired corner nP m a.1 i b.1 k d (normalDof m nP a.1 i d) (normalDof m nP b.1 k (m - 1 - d)) :=
        ⟨ha.1, hb.1, hab, hi, hk, hE, hd, rfl, rfl⟩
      have l1 : normalDof m nP a.1 i d < A.cols := by rw [c4]; exact normalDof_lt hi hd ha.1
      have l2 : normalDof m nP b.1 k (m - 1 - d) < A.cols := by rw [c4]; exact normalDof_lt hk (by omega) hb.1
      have same := (c6.same _ (c5.mem _ l1) _ (c5.mem _ l2)).2 (Or.inr ⟨_, _, _, _, _, np⟩)
      simp only at same
      have flux := c7 _ (c5.mem _ l1) _ (c5.mem _ l2) _ _ _ _ _ np
      simp only at flux
      rw [same, smul_smul, smul_smul, ← add_smul]
      have : (outwardSign i : ℝ) * (val (normalDof m nP a.1 i d) : ℝ) + (outwardSign k : ℝ) * (val (normalDof m nP b.1 k (m - 1 - d)) : ℝ) = 0 := by
        exact_mod_cast flux
      rw [this, zero_smul]
  · have hop : ((i + 2) % 4 = 1 ∨ (i + 2) % 4 = 3) ↔ (i = 1 ∨ i = 3) := by omega
    have hsgn : (outwardSign ((i + 2) % 4) : ℝ) = -(outwardSign i : ℝ) := by
      rcases four_cases hi with rfl | rfl | rfl | rfl <;> simp [outwardSign]
    simp only [hop]
    rw [hsgn, ← hab, grid_values P M rep _ _ i a b ?_ ?_ ?_ hrep ?_ pa.1 pa.2 pb.1 pb.2 hN _ s, neg_smul, add_neg_cancel]
    · split_ifs <;> omega
    · split_ifs <;> simp
    · split_ifs <;> simp
    · split_ifs <;> omega

/-- C64 (divergence conforming spaces, completeness): for patchwise spline coefficients `g` whose fluxes balance across the patch interfaces
there is a vector of dofs with the same discrete field on every element. -/
theorem C64_divergence_complete (junk : Nat → ℝ) (junkM : Nat → Nat → ℝ) (solve) (hs : SolvesSystems solve) (P M nP rep : Nat) (hnP : 0 < nP)
    (hP0 : 0 < P) (hP : P ≤ 19) (hrep : 1 ≤ rep) (hrP : rep ≤ P) (hc : ConformingPatches near corner nP)
    (t : Mesh.Tree ℝ) (ht : initElementTree near corner nP M = some t) (g : Nat → R)
    (hg : ∀ p q i k s d e, NormalPaired corner nP (P + rep * (2 ^ M - 1)) p i q k s d e → (outwardSign i : ℝ) • g d + (outwardSign k : ℝ) • g e = 0) :
    ∃ A T, makeMatrixDiv junk junkM solve t P M nP rep = some A ∧ transformationDiv junk junkM solve t P M nP rep = some T ∧
      ∃ f : EMat R, f.rows = T.cols ∧ f.cols = 1 ∧ ∀ (d n : Nat) (h : ℝ) (s : ℝ × ℝ),
        discreteFunction (ofReal R T) f (nP * 4 ^ M) P d n h s = discreteFunction (ofReal R A) ⟨A.cols, 1, fun d _ => g d⟩ (nP * 4 ^ M) P d n h s := by
  classical
  obtain ⟨A, G, T, trips, col, val, c1, c2, c3, -, c4, c5, c6, c7, c8⟩ := div_facts near corner junk junkM solve hs P M nP rep hnP hP0 hP hrep hrP hc t ht
  refine ⟨A, T, c1, c2, ⟨T.cols, 1, fun c _ => if h : ∃ d < A.cols, col d = c then (val h.choose : ℝ) • g h.choose else 0⟩, rfl, rfl, ?_⟩
  intro d n h s
  rw [discreteFunction_mul A G T _ c3 trips col val c5]
  unfold discreteFunction localCoeff ofReal
  simp only []
  congr 1
  refine sum_congr rfl fun i _ => ?_
  congr 1
  refine sum_congr rfl fun d hd => ?_
  have hd := mem_range.1 hd
  have ex : ∃ e < A.cols, col e = col d := ⟨d, hd, rfl⟩
  rw [dif_pos ex]
  obtain ⟨e1, e2⟩ := ex.choose_spec
  congr 1
  have sq : ∀ i : Nat, (outwardSign i : ℝ) * outwardSign i = 1 := by intro i; unfold outwardSign; split_ifs <;> norm_num
  rcases (c6.same _ (c5.mem _ e1) _ (c5.mem _ hd)).1 e2 with e | ⟨p, q, i, k, s, np⟩
  · simp only at e
    rw [e, smul_smul]
    rcases c8 _ (c5.mem _ hd) with h | h <;> simp only at h <;> rw [h] <;> simp
  · have f1 := hg _ _ _ _ _ _ _ np
    have f2 := c7 _ (c5.mem _ e1) _ (c5.mem _ hd) _ _ _ _ _ np
    simp only at f1 f2
    have v1 := c8 _ (c5.mem _ e1)
    have v2 := c8 _ (c5.mem _ hd)
    simp only at v1 v2
    generalize ex.choose = e at *
    have f2' : (outwardSign i : ℝ) * val e + outwardSign k * val d = 0 := by exact_mod_cast f2
    have w2 : (val d : ℝ) * val d = 1 := by rcases v2 with h | h <;> rw [h] <;> norm_num
    have w1 : (val e : ℝ) * val e = 1 := by rcases v1 with h | h <;> rw [h] <;> norm_num
    rw [smul_smul]
    have : g d = ((val d : ℝ) * val e) • g e := by
      have h1 : (outwardSign k : ℝ) • g d = -((outwardSign i : ℝ) • g e) := by rw [eq_neg_iff_add_eq_zero, add_comm]; exact f1
      have h2 : g d = (outwardSign k : ℝ) • ((outwardSign k : ℝ) • g d) := by rw [smul_smul, sq, one_smul]
      rw [h2, h1, smul_neg, smul_smul, ← neg_smul]
      congr 1
      have : (outwardSign k : ℝ) * ((outwardSign i : ℝ) * val e + outwardSign k * val d) * val e = 0 := by rw [f2']; ring
      have s := sq k
      have : (outwardSign k : ℝ) * outwardSign i * (val e * val e) + (outwardSign k * outwardSign k) * (val d * val e) = 0 := by linarith
      rw [w1, s] at this
      linarith
    rw [this]

/-! ### discontinuous spaces -/

/-- C64 (discontinuous spaces): nothing is glued, the discrete functions are the ones of the projector. -/
theorem C64_discontinuous (junk : Nat → ℝ) (junkM : Nat → Nat → ℝ) (solve) (hs : SolvesSystems solve) (P M nP rep : Nat) (hnP : 0 < nP)
    (hP : P ≤ 19) (hrep : 1 ≤ rep) (t : Mesh.Tree ℝ) (ht : initElementTree near corner nP M = some t) :
    ∃ A T, makeMatrixDisc junk junkM solve t P M nP rep = some A ∧ transformationDisc junk junkM solve t P M nP rep = some T ∧
      T.rows = A.rows ∧ T.cols = A.cols ∧ ∀ i, ∀ j < A.cols, T.at' i j = A.at' i j := by
  obtain ⟨A, h1, -⟩ := disc_matrix near corner junk junkM solve hs P M nP rep hnP hP hrep t ht
  have good : GoodIds A.cols [] := ⟨by simp, by simp, by simp, by simp, by simp⟩
  obtain ⟨post, trips, ns, a1, a2, a3, a4, a5, a6, a7⟩ := assemble_eq A.cols [] good
  obtain ⟨post', trips', b1, b2, -⟩ := glueMatrix_of_good A.cols [] good
  obtain ⟨rfl, rfl⟩ := Prod.mk.inj (Option.some.inj (b1.symm.trans a1))
  simp only [List.map_nil, List.sum_nil, Nat.add_zero] at a4
  have hns : ns = List.range A.cols := by
    refine List.Perm.eq_of_pairwise (le := (· < ·)) (fun a b _ _ h1 h2 => absurd h1 (Nat.lt_asymm h2)) a5 List.pairwise_lt_range ?_
    rw [List.perm_ext_iff_of_nodup (a5.imp fun h => Nat.ne_of_lt h) List.nodup_range]
    intro x; rw [a6]; simp
  obtain ⟨G, col, val, l1, l2, l3⟩ := onePerRow _ _ _ _ b2
  refine ⟨A, ⟨A.rows, G.cols, fun i j => ∑ k ∈ range A.cols, A.at' i k * G.at' k j⟩, h1, ?_, rfl, l2.trans a4, ?_⟩
  · unfold transformationDisc
    simp only [h1, Option.bind_eq_bind, Option.bind_some, glueMat, a1, l1]
    rw [EMat.mul, if_pos l3.rows.symm]
  · intro i j hj
    have hv : ∀ d < A.cols, col d = d ∧ val d = 1 := by
      intro d hd
      obtain ⟨x, h1, h2⟩ := (a7 _ _ _).1 (l3.mem d hd)
      rcases h2 with ⟨rfl, h2⟩ | ⟨_, h2, _⟩
      · rw [hns] at h1
        have hlt := (List.getElem?_eq_some_iff.1 h1).1
        rw [List.length_range] at hlt
        rw [List.getElem?_range hlt, Option.some.injEq] at h1
        exact ⟨h1, h2⟩
      · simp at h2
    show ∑ k ∈ range A.cols, A.at' i k * G.at' k j = _
    rw [sum_eq_single j]
    · rw [l3.entry j hj, if_pos (hv j hj).1.symm, (hv j hj).2]; simp
    · intro k hk hne
      have hk := mem_range.1 hk
      rw [l3.entry k hk, if_neg (by rw [(hv k hk).1]; exact Ne.symm hne), mul_zero]
    · intro h; exact absurd (mem_range.2 hj) h

/-! ### the hypotheses can be met -/

/-- Continuous quadratic splines on the surface of a cube: the matrix exists, and two neighbouring patches face each other. -/
example (junk : Nat → ℝ) (junkM : Nat → Nat → ℝ) : ∃ t : Mesh.Tree ℝ, initElementTree (fun a b : Nat => a == b) cubeCorner 6 0 = some t ∧
    ConformingPatches (fun a b : Nat => a == b) cubeCorner 6 ∧ OrientedPatches cubeCorner 6 ∧
    (∃ T, transformationCont junk junkM solver t 2 0 6 1 = some T) ∧
    ∃ i k b, b < 6 ∧ Facing cubeCorner 0 i k (0, []) (b, []) := by
  obtain ⟨t, ht, -⟩ := tree_facts (K := ℝ) (fun a b : Nat => a == b) cubeCorner 6 0 (by norm_num)
  refine ⟨t, ht, cube_conforming, cube_oriented, ?_, ?_⟩
  · obtain ⟨st, h1, h2⟩ := C64_continuous_exists _ _ junk junkM solver solver_solves 2 0 6 1 (by norm_num) (by norm_num) (by norm_num) (by norm_num) (by norm_num)
      cube_conforming cube_oriented t ht
    rw [h2]
    have hx : ((initElementTree (fun a b : Nat => a == b) cubeCorner 6 0 : Option (Mesh.Tree ℝ)).bind fun t =>
      (identifyCont 3 54 (patchTopologyInfo t)).map fun st => (st.out.zip (st.out.tail ++ [⟨[], 1⟩])).all fun x =>
        decide (x.1.dofs ≠ []) || decide (x.2.dofs ≠ [])) = some true := by decide +kernel
    rw [show oneDDim 2 1 0 = 3 by decide] at h1
    rw [ht, Option.bind_some, h1, Option.map_some, Option.some_inj] at hx
    intro k d hk hd
    have hk' : k < st.out.length := (List.getElem?_eq_some_iff.1 hk).1
    have hz : (st.out.zip (st.out.tail ++ [⟨[], 1⟩]))[k]? = some (d, (st.out[k + 1]?).getD ⟨[], 1⟩) := by
      rw [List.getElem?_zip_eq_some]
      refine ⟨hk, ?_⟩
      simp only
      rw [List.getElem?_append]
      split
      · rename_i h
        rw [List.getElem?_tail]
        rw [List.length_tail] at h
        rw [List.getElem?_eq_getElem (by omega)]
        rfl
      · rename_i h
        rw [List.length_tail] at h ⊢
        rw [List.getElem?_eq_none (l := st.out) (by omega), show k - (st.out.length - 1) = 0 by omega]
        rfl
    have hall := List.all_eq_true.1 hx _ (List.mem_of_getElem? hz)
    simp only [hd, ne_eq, not_true_eq_false, decide_false, Bool.false_or, decide_eq_true_eq] at hall
    cases hs : st.out[k + 1]? with
    | none => rw [hs] at hall; exact absurd rfl hall
    | some e => rw [hs] at hall; exact ⟨e, rfl, hall⟩
  · have h : (List.range 4).any (fun i => (List.range 4).any fun k => (List.range 6).any fun b => decide (b ≠ 0) &&
      (decide (cubeCorner 0 i = cubeCorner b ((k + 1) % 4)) && decide (cubeCorner 0 ((i + 1) % 4) = cubeCorner b k))) = true := by decide +kernel
    obtain ⟨i, hi, h⟩ := List.any_eq_true.1 h
    obtain ⟨k, hk, h⟩ := List.any_eq_true.1 h
    obtain ⟨b, hb, h⟩ := List.any_eq_true.1 h
    simp only [Bool.and_eq_true, decide_eq_true_eq] at h
    have hi := List.mem_range.1 hi
    have hk := List.mem_range.1 hk
    refine ⟨i, k, b, List.mem_range.1 hb, hi, hk, Or.inl ⟨Ne.symm h.1, ?_, ?_, Or.inr ⟨h.2.1, h.2.2, ?_⟩⟩⟩
    · rcases four_cases hi with rfl | rfl | rfl | rfl <;> simp [OnEdge, posX, posY]
    · rcases four_cases hk with rfl | rfl | rfl | rfl <;> simp [OnEdge, posX, posY]
    · rcases four_cases hi with rfl | rfl | rfl | rfl <;> rcases four_cases hk with rfl | rfl | rfl | rfl <;> simp [alongEdge, posX, posY]

/-- Neighbours in a patch of 16 elements. -/
example : Facing cubeCorner 2 1 3 (0, [1, 0]) (0, [0, 1]) := by
  refine ⟨by norm_num, by norm_num, Or.inr ⟨rfl, rfl, Or.inr (Or.inl ⟨rfl, ?_, ?_⟩)⟩⟩ <;> decide

end Bembel.Props
