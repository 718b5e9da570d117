import Verif.Lemmas.ProjectorSolve
import Verif.Props.Mesh
/-!
# Assembly of the projection matrix
-/

open Finset

namespace Bembel.Projector
open Spec Spl Props Basis Mesh

/-! ### sums over lists -/

theorem list_sum_range {A : Type} [AddCommMonoid A] (n : Nat) (f : Nat → A) : ((List.range n).map f).sum = ∑ i ∈ range n, f i := by
  induction n with
  | zero => simp
  | succ n ih => rw [List.range_succ, List.map_append, List.sum_append, ih, sum_range_succ]; simp

open scoped Classical in
theorem list_sum_single {α A : Type} [AddCommMonoid A] (l : List α) (hl : l.Nodup) (f : α → A) (a : α) (h : ∀ b ∈ l, b ≠ a → f b = 0) :
    (l.map f).sum = if a ∈ l then f a else 0 := by
  induction l with
  | nil => simp
  | cons b l ih =>
    rw [List.map_cons, List.sum_cons, ih (List.nodup_cons.1 hl).2 (fun c hc hne => h c (List.mem_cons_of_mem _ hc) hne)]
    by_cases e : b = a
    · subst e
      rw [if_neg (List.nodup_cons.1 hl).1, if_pos List.mem_cons_self, add_zero]
    · rw [h b List.mem_cons_self e, zero_add]
      by_cases h' : a ∈ l
      · rw [if_pos h', if_pos (List.mem_cons_of_mem _ h')]
      · rw [if_neg h', if_neg]
        rintro (_ | ⟨_, h⟩)
        · exact e rfl
        · exact h' h

theorem list_sum_filterMap {α β A : Type} [AddCommMonoid A] (l : List α) (c : α → Prop) [DecidablePred c] (v : α → β) (g : β → A) :
    ((l.filterMap fun a => if c a then some (v a) else none).map g).sum = (l.map fun a => if c a then g (v a) else 0).sum := by
  induction l with
  | nil => rfl
  | cons a l ih =>
    by_cases h : c a
    · rw [List.filterMap_cons_some (by rw [if_pos h]), List.map_cons, List.sum_cons, ih, List.map_cons, List.sum_cons, if_pos h]
    · rw [List.filterMap_cons_none (by rw [if_neg h]), ih, List.map_cons, List.sum_cons, if_neg h, zero_add]

theorem list_sum_filter {A : Type} [AddCommMonoid A] (n : Nat) (c : Nat → Prop) [DecidablePred c] (f : Nat → A) :
    ((((List.range n).filter fun d => decide (c d))).map f).sum = ∑ d ∈ range n, if c d then f d else 0 := by
  induction n with
  | zero => simp
  | succ n ih =>
    rw [List.range_succ, List.filter_append, List.map_append, List.sum_append, ih, sum_range_succ]
    by_cases h : c n <;> simp [h]

theorem list_sum_flatten {α A : Type} [AddCommMonoid A] (L : List (List α)) (f : α → A) :
    (L.flatten.map f).sum = (L.map fun l => (l.map f).sum).sum := by
  induction L with
  | nil => rfl
  | cons l L ih => rw [List.flatten_cons, List.map_append, List.sum_append, ih, List.map_cons, List.sum_cons]

theorem list_sum_flatMap {α β A : Type} [AddCommMonoid A] (L : List β) (g : β → List α) (f : α → A) :
    ((L.flatMap g).map f).sum = (L.map fun b => ((g b).map f).sum).sum := by
  rw [List.flatMap_def, list_sum_flatten, List.map_map]; rfl

/-! ### the dofs of an element -/

/-- The support of B-spline `d` of order `q` contains element `X`. -/
def Active (q r X d : Nat) : Prop := ¬ (q - 1 + r * X < d ∨ d + (q - 1) < q - 1 + r * X)

instance (q r X : Nat) : DecidablePred (Active q r X) := fun d => by unfold Active; infer_instance

/-- The dofs whose support contains element `X`. -/
def dofs (q n r X : Nat) : List Nat := (List.range (splineDim q n r)).filter fun d => decide (Active q r X d)

theorem mem_dofs {q n r X d : Nat} : d ∈ dofs q n r X ↔ d < splineDim q n r ∧ Active q r X d := by
  simp [dofs]

theorem dofs_nodup (q n r X : Nat) : (dofs q n r X).Nodup := List.nodup_range.filter _

theorem foldlM_filter {α : Type} (l : List α) (c : α → Prop) [DecidablePred c] (f : List α → α → Option (List α))
    (h : ∀ out, ∀ a ∈ l, f out a = some (if c a then out ++ [a] else out)) (out : List α) :
    l.foldlM f out = some (out ++ l.filter fun a => decide (c a)) := by
  induction l generalizing out with
  | nil => simp
  | cons a l ih =>
    rw [List.foldlM_cons, h out a List.mem_cons_self, Option.bind_eq_bind, Option.bind_some,
      ih (fun out b hb => h out b (List.mem_cons_of_mem _ hb))]
    by_cases hc : c a <;> simp [hc]

theorem nonzeroDofs_eq (q n r X : Nat) (hq : 1 ≤ q) (hr : 1 ≤ r) (hX : X < n) :
    nonzeroDofs ((List.range (splineDim q n r + q)).map (uniformKnot q n r) : List ℝ) (splineDim q n r) q (((X : ℝ) + 1 / 2) / n) =
      some (dofs q n r X) := by
  have hk : ∀ d < splineDim q n r + q, ((List.range (splineDim q n r + q)).map (uniformKnot q n r) : List ℝ)[d]? = some (uniformKnot q n r d) := by
    intro d hd
    rw [List.getElem?_map, List.getElem?_range hd]; rfl
  unfold nonzeroDofs
  rw [foldlM_filter _ (Active q r X)]
  · rfl
  · intro out d hd
    rw [List.mem_range] at hd
    rw [hk d (by omega), hk (d + q) (by omega)]
    simp only [Option.bind_eq_bind, Option.bind_some]
    congr 1
    exact if_congr (mid_iff q n r X d hq hr hX) rfl rfl

/-! ### the triplets of an element -/

/-- Bernstein coefficient of the tensor product B-spline `(dx, dy)` on the element `(X, Y)`. -/
noncomputable def coef2 (p qx qy n r X Y dx dy i : Nat) : ℝ :=
  coef p qx n r X dx (i % (p + 1)) * coef p qy n r Y dy (i / (p + 1))

/-- The pairs of dofs of an element. -/
def dofPairs (qx qy n r X Y : Nat) : List (Nat × Nat) := (dofs qy n r Y).flatMap fun dy => (dofs qx n r X).map fun dx => (dx, dy)

open scoped Classical in
/-- The triplets of an element. -/
noncomputable def triplets (p qx qy n r k patch X Y : Nat) : List (Nat × Nat × ℝ) :=
  ((dofPairs qx qy n r X Y).map fun d =>
    (List.range ((p + 1) * (p + 1))).filterMap fun i => if |coef2 p qx qy n r X Y d.1 d.2 i| > 1 / 10000 then
      some (k * (p + 1) * (p + 1) + i, patch * (splineDim qx n r * splineDim qy n r) + splineDim qx n r * d.2 + d.1,
        coef2 p qx qy n r X Y d.1 d.2 i) else none).flatten

theorem elementTriplets_eq (junk : Nat → ℝ) (junkM : Nat → Nat → ℝ) (solve) (hs : SolvesSystems solve) (t : Mesh.Tree ℝ) (a : Addr)
    (p qx qy M r X Y k : Nat) (hp : p ≤ 19) (hqx : 1 ≤ qx) (hqy : 1 ≤ qy) (hx : qx = p + 1 ∨ qx = p) (hy : qy = p + 1 ∨ qy = p)
    (hr : 1 ≤ r) (hX : X < 2 ^ M) (hY : Y < 2 ^ M) (hllc : t.llc a = ((X : ℝ) / 2 ^ M, (Y : ℝ) / 2 ^ M)) (hlev : t.level a = M) :
    elementTriplets junk solve t (system junk junkM (p + 1) (makeInterpolationMask (p + 1))) (makeInterpolationMask (p + 1)) (p + 1) (2 ^ M) qx qy
      ((List.range (splineDim qx (2 ^ M) r + qx)).map (uniformKnot qx (2 ^ M) r))
      ((List.range (splineDim qy (2 ^ M) r + qy)).map (uniformKnot qy (2 ^ M) r)) (splineDim qx (2 ^ M) r) (splineDim qy (2 ^ M) r) a k =
      some (triplets p qx qy (2 ^ M) r k (t.patch a) X Y) := by
  have hc : ((2 ^ M : Nat) : ℝ) = 2 ^ M := by push_cast; rfl
  have hmid : ∀ Z : Nat, (Z : ℝ) / 2 ^ M + 1 / 2 * (1 / 2 ^ M) = ((Z : ℝ) + 1 / 2) / ((2 ^ M : Nat) : ℝ) := by
    intro Z; rw [hc]; ring
  unfold elementTriplets
  simp only [hllc, getH, hlev, hmid]
  rw [nonzeroDofs_eq qy (2 ^ M) r Y hqy hr hY, nonzeroDofs_eq qx (2 ^ M) r X hqx hr hX]
  simp only [Option.bind_eq_bind, Option.bind_some]
  rw [mapM_eq_some_map _ (fun d => (List.range ((p + 1) * (p + 1))).filterMap fun i => if |coef2 p qx qy (2 ^ M) r X Y d.1 d.2 i| > 1 / 10000 then
      some (k * (p + 1) * (p + 1) + i, t.patch a * (splineDim qx (2 ^ M) r * splineDim qy (2 ^ M) r) + splineDim qx (2 ^ M) r * d.2 + d.1,
        coef2 p qx qy (2 ^ M) r X Y d.1 d.2 i) else none)]
  · simp only [Option.bind_some, triplets, dofPairs]
  · rintro ⟨dx, dy⟩ hd
    obtain ⟨dy', hdy, h⟩ := List.mem_flatMap.1 hd
    obtain ⟨dx', hdx, h⟩ := List.mem_map.1 h
    obtain ⟨rfl, rfl⟩ := Prod.mk.inj h
    obtain ⟨sol, e, hsol⟩ := localSolution_eq junk junkM solve hs p qx qy (2 ^ M) r X Y dx' dy' hp hqx hqy hx hy hr hX hY (mem_dofs.1 hdx).1
      (mem_dofs.1 hdy).1
    rw [hc] at e
    rw [e]
    simp only [Option.bind_some]
    congr 1
    refine List.filterMap_congr fun i hi => ?_
    rw [hsol i (List.mem_range.1 hi)]
    rfl

theorem dofPairs_nodup (qx qy n r X Y : Nat) : (dofPairs qx qy n r X Y).Nodup := by
  unfold dofPairs
  rw [List.nodup_flatMap]
  refine ⟨fun dy _ => (dofs_nodup _ _ _ _).map fun a b h => (Prod.mk.inj h).1, ?_⟩
  refine (dofs_nodup _ _ _ _).imp fun {a b} hab => ?_
  intro x h1 h2
  obtain ⟨_, _, rfl⟩ := List.mem_map.1 h1
  obtain ⟨_, _, h⟩ := List.mem_map.1 h2
  exact hab (Prod.mk.inj h).2.symm

theorem mem_dofPairs {qx qy n r X Y : Nat} {d : Nat × Nat} : d ∈ dofPairs qx qy n r X Y ↔ d.1 ∈ dofs qx n r X ∧ d.2 ∈ dofs qy n r Y := by
  unfold dofPairs
  rw [List.mem_flatMap]
  constructor
  · rintro ⟨dy, h1, h2⟩
    obtain ⟨dx, h3, rfl⟩ := List.mem_map.1 h2
    exact ⟨h3, h1⟩
  · rintro ⟨h1, h2⟩
    exact ⟨d.2, h2, List.mem_map.2 ⟨d.1, h1, rfl⟩⟩

/-- Position of a triplet. -/
theorem digits_inj {m a b c d : Nat} (hb : b < m) (hd : d < m) (h : a * m + b = c * m + d) : a = c ∧ b = d := by
  have h1 := divmod_pair (a := a) hb
  have h2 := divmod_pair (a := c) hd
  rw [h] at h1
  exact ⟨h1.2.symm.trans h2.2, h1.1.symm.trans h2.1⟩

open scoped Classical in
/-- The value that is stored for a coefficient. -/
noncomputable def cut (v : ℝ) : ℝ := if |v| > 1 / 10000 then v else 0

/-- The sum of the triplets of one element at a position of the matrix. -/
theorem triplets_sum (p qx qy n r k patch X Y k' pa c i : Nat) (hqx : 1 ≤ qx) (hqy : 1 ≤ qy) (hx : qx = p + 1 ∨ qx = p) (hy : qy = p + 1 ∨ qy = p)
    (hi : i < (p + 1) * (p + 1)) (hc : c < splineDim qx n r * splineDim qy n r) :
    ((triplets p qx qy n r k patch X Y).map fun x => if x.1 = k' * ((p + 1) * (p + 1)) + i ∧
      x.2.1 = pa * (splineDim qx n r * splineDim qy n r) + c then x.2.2 else 0).sum =
      if k = k' ∧ patch = pa then cut (coef2 p qx qy n r X Y (c % splineDim qx n r) (c / splineDim qx n r) i) else 0 := by
  classical
  unfold triplets
  rw [list_sum_flatten, List.map_map]
  have hD : 0 < splineDim qx n r := by unfold splineDim; omega
  have pos : ∀ d ∈ dofPairs qx qy n r X Y, splineDim qx n r * d.2 + d.1 < splineDim qx n r * splineDim qy n r ∧ d.1 < splineDim qx n r := by
    intro d hd
    obtain ⟨h1, h2⟩ := mem_dofPairs.1 hd
    have h1 := (mem_dofs.1 h1).1
    have h2 := (mem_dofs.1 h2).1
    refine ⟨?_, h1⟩
    have : splineDim qx n r * (d.2 + 1) ≤ splineDim qx n r * splineDim qy n r := Nat.mul_le_mul_left _ (by omega)
    rw [Nat.mul_add] at this
    omega
  have inner : ∀ d ∈ dofPairs qx qy n r X Y, (fun l => (l.map fun x : Nat × Nat × ℝ => if x.1 = k' * ((p + 1) * (p + 1)) + i ∧
      x.2.1 = pa * (splineDim qx n r * splineDim qy n r) + c then x.2.2 else 0).sum)
      ((List.range ((p + 1) * (p + 1))).filterMap fun i => if |coef2 p qx qy n r X Y d.1 d.2 i| > 1 / 10000 then
        some (k * (p + 1) * (p + 1) + i, patch * (splineDim qx n r * splineDim qy n r) + splineDim qx n r * d.2 + d.1,
          coef2 p qx qy n r X Y d.1 d.2 i) else none) =
      if d = (c % splineDim qx n r, c / splineDim qx n r) ∧ k = k' ∧ patch = pa then cut (coef2 p qx qy n r X Y d.1 d.2 i) else 0 := by
    intro d hd
    obtain ⟨p1, p2⟩ := pos d hd
    simp only []
    rw [list_sum_filterMap (c := fun i => |coef2 p qx qy n r X Y d.1 d.2 i| > 1 / 10000), list_sum_range]
    have hcol : patch * (splineDim qx n r * splineDim qy n r) + splineDim qx n r * d.2 + d.1 = pa * (splineDim qx n r * splineDim qy n r) + c ↔
        patch = pa ∧ d = (c % splineDim qx n r, c / splineDim qx n r) := by
      constructor
      · intro h
        obtain ⟨h1, h2⟩ := digits_inj (m := splineDim qx n r * splineDim qy n r) (a := patch) (c := pa) p1 hc (by rw [← h, Nat.add_assoc])
        refine ⟨h1, ?_⟩
        have := divmod_pair (a := d.2) p2
        rw [show d.2 * splineDim qx n r + d.1 = c by rw [Nat.mul_comm]; exact h2] at this
        rw [this.1, this.2]
      · rintro ⟨rfl, rfl⟩
        simp only []
        rw [Nat.add_assoc, Nat.div_add_mod]
    have hrow : ∀ j < (p + 1) * (p + 1), (k * (p + 1) * (p + 1) + j = k' * ((p + 1) * (p + 1)) + i ↔ k = k' ∧ j = i) := by
      intro j hj
      constructor
      · intro h
        exact digits_inj hj hi (by rw [← h]; ring)
      · rintro ⟨rfl, rfl⟩; ring
    rw [Finset.sum_eq_single i]
    · simp only [hcol, hrow i hi]
      unfold cut
      by_cases h1 : k = k' <;> by_cases h2 : patch = pa <;> by_cases h3 : d = (c % splineDim qx n r, c / splineDim qx n r) <;> simp [h1, h2, h3]
    · intro j hj hne
      simp only [hrow j (mem_range.1 hj)]
      simp [hne]
    · intro h; exact absurd (mem_range.2 hi) h
  refine (congrArg List.sum (List.map_congr_left inner)).trans ?_
  rw [list_sum_single _ (dofPairs_nodup _ _ _ _ _ _) _ (c % splineDim qx n r, c / splineDim qx n r) (fun b _ hb => by simp [hb])]
  by_cases hk : k = k' ∧ patch = pa
  · rw [if_pos hk]
    split_ifs with h1 h2
    · rfl
    · simp [hk] at h2
    · symm
      have hz : coef2 p qx qy n r X Y (c % splineDim qx n r) (c / splineDim qx n r) i = 0 := by
        unfold coef2
        rw [mem_dofPairs, mem_dofs, mem_dofs] at h1
        have b1 : c % splineDim qx n r < splineDim qx n r := Nat.mod_lt _ hD
        have b2 : c / splineDim qx n r < splineDim qy n r := by
          rw [Nat.div_lt_iff_lt_mul hD, Nat.mul_comm]; exact hc
        have d1 : i % (p + 1) ≤ p := by have := Nat.mod_lt i (show 0 < p + 1 by omega); omega
        have d2 : i / (p + 1) ≤ p := by have := (Nat.div_lt_iff_lt_mul (show 0 < p + 1 by omega)).2 hi; omega
        by_cases a1 : Active qx r X (c % splineDim qx n r)
        · have a2 : ¬ Active qy r Y (c / splineDim qx n r) := fun a2 => h1 ⟨⟨b1, a1⟩, b2, a2⟩
          rw [coef_support p qy n r Y _ _ hy hqy d2 (not_not.1 a2), mul_zero]
        · rw [coef_support p qx n r X _ _ hx hqx d1 (not_not.1 a1), zero_mul]
      rw [hz]; simp [cut]
  · rw [if_neg hk]
    simp [hk]

theorem triplets_mem (p qx qy n r k patch X Y N nP : Nat) (hk : k < N) (hpatch : patch < nP) :
    ∀ x ∈ triplets p qx qy n r k patch X Y, x.1 < (p + 1) * (p + 1) * N ∧ x.2.1 < splineDim qx n r * splineDim qy n r * nP := by
  intro x hx
  unfold triplets at hx
  obtain ⟨l, hl, hx⟩ := List.mem_flatten.1 hx
  obtain ⟨d, hd, rfl⟩ := List.mem_map.1 hl
  obtain ⟨i, hi, h⟩ := List.mem_filterMap.1 hx
  split_ifs at h
  obtain rfl := Option.some.inj h
  rw [List.mem_range] at hi
  obtain ⟨h1, h2⟩ := mem_dofPairs.1 hd
  have h1 := (mem_dofs.1 h1).1
  have h2 := (mem_dofs.1 h2).1
  simp only []
  constructor
  · have : (p + 1) * (p + 1) * (k + 1) ≤ (p + 1) * (p + 1) * N := Nat.mul_le_mul_left _ hk
    rw [Nat.mul_add, Nat.mul_one] at this
    have e : k * (p + 1) * (p + 1) = (p + 1) * (p + 1) * k := by ring
    omega
  · have a1 : splineDim qx n r * (d.2 + 1) ≤ splineDim qx n r * splineDim qy n r := Nat.mul_le_mul_left _ h2
    have a2 : splineDim qx n r * splineDim qy n r * (patch + 1) ≤ splineDim qx n r * splineDim qy n r * nP := Nat.mul_le_mul_left _ hpatch
    rw [Nat.mul_add, Nat.mul_one] at a1 a2
    rw [Nat.mul_comm patch]
    omega

/-! ### counting -/

open scoped Classical in
/-- Number of triplets of an element. -/
noncomputable def cnt (p qx qy n r X Y : Nat) : Nat :=
  ∑ dy ∈ range (splineDim qy n r), if Active qy r Y dy then ∑ dx ∈ range (splineDim qx n r), if Active qx r X dx then
    ∑ jy ∈ range (p + 1), ∑ jx ∈ range (p + 1), if |coef p qx n r X dx jx * coef p qy n r Y dy jy| > 1 / 10000 then 1 else 0 else 0 else 0

theorem length_eq_sum {α : Type} (l : List α) : l.length = (l.map fun _ => 1).sum := by
  induction l with
  | nil => rfl
  | cons a l ih => rw [List.map_cons, List.sum_cons, List.length_cons, ih]; omega

theorem triplets_length (p qx qy n r k patch X Y : Nat) : (triplets p qx qy n r k patch X Y).length = cnt p qx qy n r X Y := by
  classical
  rw [length_eq_sum]
  unfold triplets cnt
  rw [list_sum_flatten, List.map_map]
  unfold dofPairs
  rw [list_sum_flatMap]
  unfold dofs
  rw [list_sum_filter]
  refine sum_congr rfl fun dy _ => ?_
  refine if_congr Iff.rfl ?_ rfl
  rw [List.map_map, list_sum_filter]
  refine sum_congr rfl fun dx _ => ?_
  refine if_congr Iff.rfl ?_ rfl
  simp only [Function.comp_apply]
  rw [list_sum_filterMap (c := fun i => |coef2 p qx qy n r X Y dx dy i| > 1 / 10000), list_sum_range, H2.sum_range_mul]
  refine sum_congr rfl fun jy _ => sum_congr rfl fun jx hjx => ?_
  unfold coef2
  rw [(divmod_pair (mem_range.1 hjx)).1, (divmod_pair (mem_range.1 hjx)).2]

/-- Exchanging the directions does not change the number of triplets. -/
theorem cnt_swap (p qx qy n r X Y : Nat) : cnt p qx qy n r X Y = cnt p qy qx n r Y X := by
  classical
  unfold cnt
  have e : ∀ (qx qy X Y : Nat), (∑ dy ∈ range (splineDim qy n r), if Active qy r Y dy then ∑ dx ∈ range (splineDim qx n r), if Active qx r X dx then
    ∑ jy ∈ range (p + 1), ∑ jx ∈ range (p + 1), (if |coef p qx n r X dx jx * coef p qy n r Y dy jy| > 1 / 10000 then 1 else 0) else 0 else 0 : Nat) =
    ∑ dy ∈ range (splineDim qy n r), ∑ dx ∈ range (splineDim qx n r), if Active qy r Y dy ∧ Active qx r X dx then
    ∑ jy ∈ range (p + 1), ∑ jx ∈ range (p + 1), (if |coef p qx n r X dx jx * coef p qy n r Y dy jy| > 1 / 10000 then 1 else 0) else 0 := by
    intro qx qy X Y
    refine sum_congr rfl fun dy _ => ?_
    by_cases h : Active qy r Y dy <;> simp [h]
  rw [e, e, sum_comm]
  refine sum_congr rfl fun dx _ => sum_congr rfl fun dy _ => ?_
  rw [sum_comm]
  refine if_congr (and_comm) (sum_congr rfl fun jx _ => sum_congr rfl fun jy _ => ?_) rfl
  rw [mul_comm]

/-- A sum over all elements in terms of the grid positions. -/
theorem sum_leaves (nP M : Nat) (f : Nat → Nat → Nat) :
    ((leaves nP M).map fun a => f (posX a.2) (posY a.2)).sum = nP * ∑ X ∈ range (2 ^ M), ∑ Y ∈ range (2 ^ M), f X Y := by
  classical
  rw [← List.sum_toFinset _ (leaves_nodup nP M)]
  have : ∑ a ∈ (leaves nP M).toFinset, f (posX a.2) (posY a.2) =
      ∑ q ∈ range nP ×ˢ (range (2 ^ M) ×ˢ range (2 ^ M)), f q.2.1 q.2.2 := by
    refine Finset.sum_bij (fun a _ => (a.1, posX a.2, posY a.2)) ?_ ?_ ?_ ?_
    · intro a ha
      obtain ⟨h1, h2, h3⟩ := mem_leaves.1 (List.mem_toFinset.1 ha)
      have := pos_lt a.2
      rw [h2] at this
      simp [h1, this]
    · intro a ha b hb h
      obtain ⟨h1, h2, h3⟩ := mem_leaves.1 (List.mem_toFinset.1 ha)
      obtain ⟨k1, k2, k3⟩ := mem_leaves.1 (List.mem_toFinset.1 hb)
      simp only [Prod.mk.injEq] at h
      exact Prod.ext h.1 (pos_inj a.2 b.2 (by rw [h2, k2]) h3 k3 h.2.1 h.2.2)
    · rintro ⟨pa, X, Y⟩ h
      simp only [mem_product, mem_range] at h
      obtain ⟨l, l1, l2, l3, l4⟩ := pos_surj M X Y h.2.1 h.2.2
      exact ⟨(pa, l), List.mem_toFinset.2 (mem_leaves.2 ⟨h.1, l1, l2⟩), by simp [l3, l4]⟩
    · intro a _; rfl
  rw [this, sum_product]
  simp only [sum_const, card_range, smul_eq_mul, sum_product]

end Bembel.Projector
