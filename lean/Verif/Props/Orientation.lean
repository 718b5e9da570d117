import Verif.Model.Orientation
import Verif.Props.MeshTopo
import Mathlib.Analysis.Calculus.Deriv.Mul
import Mathlib.Analysis.Calculus.Deriv.Add
/-!
# Property theorems C54: the orientation test
-/

namespace Bembel.Props
open Mesh

variable {V : Type} (near : V → V → Bool) (corner : Nat → Nat → V)

/-- Specification: edge `i` of patch `p` and edge `k` of patch `q` coincide. -/
def Interface (corner : Nat → Nat → V) (P p q i k : Nat) : Prop :=
  p < P ∧ q < P ∧ p ≠ q ∧ i < 4 ∧ k < 4 ∧ patchEdge corner p i = patchEdge corner q k

/-- Specification: the normals of the patches agree along every interface of an oriented collection of patches. -/
def NormalsAgree (corner : Nat → Nat → V) (P : Nat) (geo : Nat → ℝ × ℝ → V3 × V3 × V3) : Prop :=
  ∀ p q i k, Interface corner P p q i k → ∀ s : ℝ, 0 ≤ s → s ≤ 1 →
    let A := geo p (edgePoint i s)
    let B := geo q (edgePoint k (1 - s))
    0 < inner ℝ (cross3 A.2.1 A.2.2) (cross3 B.2.1 B.2.2)

/-- C54: what the test checks: positions of the midpoints of the interfaces between edges with positive numbers.  The normals
play no role.  (The claim that acceptance implies agreeing normals is refuted by `C54_violated`.) -/
theorem C54_partial (P M : Nat) (hP : 0 < P) (hc : ConformingPatches near corner P) (geo : Nat → ℝ × ℝ → V3 × V3 × V3) :
    ∃ t : Mesh.Tree ℝ, initElementTree near corner P M = some t ∧
      (checkOrientation geo t ↔ ∀ p q i k, Interface corner P p q i k → i ≠ 0 → k ≠ 0 →
        ‖(geo p (edgePoint i (1 / 2))).1 - (geo q (edgePoint k (1 / 2))).1‖ < 1e-9 ∧
        0 < inner ℝ (geo p (edgePoint i (1 / 2))).1 (geo q (edgePoint k (1 / 2))).1) := by
  obtain ⟨t, h1, -, h3⟩ := C28_interfaces (K := ℝ) near corner P M hP hc
  refine ⟨t, h1, ?_⟩
  have mid : ∀ i < 4, edgeMidpoint i = edgePoint i (1 / 2 : ℝ) := by
    intro i hi
    obtain rfl | rfl | rfl | rfl : i = 0 ∨ i = 1 ∨ i = 2 ∨ i = 3 := by omega
    all_goals (simp only [edgeMidpoint, edgePoint, List.getD_cons_zero, List.getD_cons_succ]; norm_num)
  constructor
  · intro h p q i k hI hi0 hk0
    obtain ⟨hp, hq, hpq, hi, hk, he⟩ := hI
    rcases Nat.lt_or_gt_of_ne hpq with hlt | hlt
    · have := h _ ((h3 _).2 (Or.inl ⟨p, q, i, k, hlt, hq, hi, hk, he, rfl⟩)) ⟨by simp; omega, by simp; omega⟩
      simp only [Int.toNat_natCast, mid i hi, mid k hk] at this
      exact this
    · have := h _ ((h3 _).2 (Or.inl ⟨q, p, k, i, hlt, hp, hk, hi, he.symm, rfl⟩)) ⟨by simp; omega, by simp; omega⟩
      simp only [Int.toNat_natCast, mid i hi, mid k hk] at this
      rw [norm_sub_rev, real_inner_comm]
      exact this
  · rintro h e he ⟨hj, hk⟩
    rcases (h3 e).1 he with ⟨p, q, i, k, hlt, hq, hi, hk4, hee, rfl⟩ | ⟨p, i, -, -, -, rfl⟩
    · simp only [Int.toNat_natCast, mid i hi, mid k hk4]
      simp only [gt_iff_lt, Int.natCast_pos] at hj hk
      exact h p q i k ⟨by omega, hq, by omega, hi, hk4, hee⟩ (by omega) (by omega)
    · simp at hk

/-- C54: on a watertight geometry the test accepts exactly if no midpoint of an interface between edges with positive numbers
is the origin. -/
theorem C54_watertight (P M : Nat) (hP : 0 < P) (hc : ConformingPatches near corner P) (geo : Nat → ℝ × ℝ → V3 × V3 × V3)
    (hw : ∀ p q i k, Interface corner P p q i k → (geo p (edgePoint i (1 / 2))).1 = (geo q (edgePoint k (1 / 2))).1) :
    ∃ t : Mesh.Tree ℝ, initElementTree near corner P M = some t ∧
      (checkOrientation geo t ↔ ∀ p q i k, Interface corner P p q i k → i ≠ 0 → k ≠ 0 → (geo p (edgePoint i (1 / 2))).1 ≠ 0) := by
  obtain ⟨t, h1, h2⟩ := C54_partial near corner P M hP hc geo
  refine ⟨t, h1, h2.trans ?_⟩
  refine forall_congr' fun p => forall_congr' fun q => forall_congr' fun i => forall_congr' fun k => forall_congr' fun hI => ?_
  rw [← hw p q i k hI, sub_self, norm_zero, real_inner_self_eq_norm_sq]
  refine forall_congr' fun _ => forall_congr' fun _ => ⟨fun h h0 => ?_, fun h => ⟨by norm_num, by positivity⟩⟩
  rw [h0] at h
  simp at h

/-! ## counterexamples -/

/-- Corners of the example: a row of two squares; the second one is oriented consistently if `good`. -/
def rowCorner (good : Bool) (p i : Nat) : Nat :=
  (((if good then [[0, 1, 2, 3], [1, 4, 5, 2]] else [[0, 1, 2, 3], [4, 1, 2, 5]] : List (List Nat)).getD p []).getD i 0)

/-- Positions of the corners, shifted by `d`. -/
noncomputable def rowPoint (d : V3) (n : Nat) : V3 :=
  d + (([!₂[0, 0, 0], !₂[1, 0, 0], !₂[1, 1, 0], !₂[0, 1, 0], !₂[2, 0, 0], !₂[2, 1, 0]] : List V3).getD n 0)

/-- The two squares with their tangents. -/
noncomputable def rowGeo (good : Bool) (d : V3) (p : Nat) (s : ℝ × ℝ) : V3 × V3 × V3 :=
  if p = 0 then (d + !₂[s.1, s.2, 0], !₂[1, 0, 0], !₂[0, 1, 0])
  else if good then (d + !₂[1 + s.1, s.2, 0], !₂[1, 0, 0], !₂[0, 1, 0])
  else (d + !₂[2 - s.1, s.2, 0], !₂[-1, 0, 0], !₂[0, 1, 0])

theorem row_conforming (good : Bool) : ConformingPatches (fun a b : Nat => a == b) (rowCorner good) 2 := by
  refine ⟨?_, ?_, ?_, ?_⟩
  · intros; simp
  · cases good <;> decide +kernel
  · intro p hp q hq r hr i hi j hj k hk h1 h2
    rw [← edgeTest_iff] at h1 h2
    have : ((List.range 2).all fun p => (List.range 2).all fun q => (List.range 2).all fun r => (List.range 4).all fun i =>
        (List.range 4).all fun j => (List.range 4).all fun k => !edgeTest (rowCorner good) p i q j || !edgeTest (rowCorner good) p i r k ||
        decide ((p, i) = (q, j) ∨ (p, i) = (r, k) ∨ (q, j) = (r, k))) = true := by cases good <;> decide +kernel
    have := all_range (all_range (all_range (all_range (all_range (all_range this hp) hq) hr) hi) hj) hk
    simpa [h1, h2] using this
  · intro p hp q hq hpq i hi i' hi' j hj j' hj' h1 h2
    rw [← edgeTest_iff] at h1 h2
    have : ((List.range 2).all fun p => (List.range 2).all fun q => (List.range 4).all fun i => (List.range 4).all fun i' =>
        (List.range 4).all fun j => (List.range 4).all fun j' => !edgeTest (rowCorner good) p i q j || !edgeTest (rowCorner good) p i' q j' ||
        decide (p = q) || decide (i = i')) = true := by cases good <;> decide +kernel
    have := all_range (all_range (all_range (all_range (all_range (all_range this hp) hq) hi) hi') hj) hj'
    simpa [h1, h2, hpq] using this

theorem row_interface (good : Bool) (p q i k : Nat) (h : Interface (rowCorner good) 2 p q i k) :
    (p = 0 ∧ q = 1 ∧ i = 1 ∧ k = if good then 3 else 1) ∨ (p = 1 ∧ q = 0 ∧ k = 1 ∧ i = if good then 3 else 1) := by
  obtain ⟨hp, hq, hpq, hi, hk, he⟩ := h
  rw [← edgeTest_iff] at he
  have : ((List.range 2).all fun p => (List.range 2).all fun q => (List.range 4).all fun i => (List.range 4).all fun k =>
      !edgeTest (rowCorner good) p i q k || decide (p = q) || decide ((p = 0 ∧ q = 1 ∧ i = 1 ∧ k = if good then 3 else 1) ∨
        (p = 1 ∧ q = 0 ∧ k = 1 ∧ i = if good then 3 else 1))) = true := by cases good <;> decide +kernel
  have := all_range (all_range (all_range (all_range this hp) hq) hi) hk
  simpa [he, hpq] using this

/-- The tangents are the partial derivatives, the corners are at the given points. -/
theorem row_geo (good : Bool) (d : V3) (p : Nat) (hp : p < 2) :
    (∀ i < 4, (rowGeo good d p (cornerPoint i)).1 = rowPoint d (rowCorner good p i)) ∧
    ∀ s : ℝ × ℝ, HasDerivAt (fun x => (rowGeo good d p (x, s.2)).1) (rowGeo good d p s).2.1 s.1 ∧
      HasDerivAt (fun y => (rowGeo good d p (s.1, y)).1) (rowGeo good d p s).2.2 s.2 := by
  have hd : ∀ (c u : V3) (x : ℝ), HasDerivAt (fun x : ℝ => c + x • u) u x := fun c u x => by
    simpa using ((hasDerivAt_id x).smul_const u).const_add c
  refine ⟨?_, ?_⟩
  · intro i hi
    obtain rfl | rfl : p = 0 ∨ p = 1 := by omega
    all_goals
      obtain rfl | rfl | rfl | rfl : i = 0 ∨ i = 1 ∨ i = 2 ∨ i = 3 := by omega
      all_goals cases good <;> simp [rowGeo, rowPoint, rowCorner, cornerPoint, edgePoint] <;> norm_num
  · intro s
    obtain rfl | rfl : p = 0 ∨ p = 1 := by omega
    · constructor
      · convert hd (d + !₂[0, s.2, 0]) !₂[1, 0, 0] s.1 using 1
        · funext x; simp only [rowGeo, if_true]; ext j; fin_cases j <;> simp
        · simp [rowGeo]
      · convert hd (d + !₂[s.1, 0, 0]) !₂[0, 1, 0] s.2 using 1
        · funext x; simp only [rowGeo, if_true]; ext j; fin_cases j <;> simp
        · simp [rowGeo]
    · cases good
      · constructor
        · convert hd (d + !₂[2, s.2, 0]) !₂[-1, 0, 0] s.1 using 1
          · funext x; simp only [rowGeo]; ext j; fin_cases j <;> simp <;> ring
          · simp [rowGeo]
        · convert hd (d + !₂[2 - s.1, 0, 0]) !₂[0, 1, 0] s.2 using 1
          · funext x; simp only [rowGeo]; ext j; fin_cases j <;> simp
          · simp [rowGeo]
      · constructor
        · convert hd (d + !₂[1, s.2, 0]) !₂[1, 0, 0] s.1 using 1
          · funext x; simp only [rowGeo]; ext j; fin_cases j <;> simp <;> ring
          · simp [rowGeo]
        · convert hd (d + !₂[1 + s.1, 0, 0]) !₂[0, 1, 0] s.2 using 1
          · funext x; simp only [rowGeo]; ext j; fin_cases j <;> simp
          · simp [rowGeo]

/-- C54 does not hold: two coplanar squares with opposite normals pass the test (the shared edges agree pointwise). -/
theorem C54_violated : ∃ t : Mesh.Tree ℝ, initElementTree (fun a b : Nat => a == b) (rowCorner false) 2 0 = some t ∧
    checkOrientation (rowGeo false 0) t ∧ Interface (rowCorner false) 2 0 1 1 1 ∧
    ∀ s : ℝ, (rowGeo false 0 0 (edgePoint 1 s)).1 = (rowGeo false 0 1 (edgePoint 1 s)).1 ∧
      cross3 (rowGeo false 0 0 (edgePoint 1 s)).2.1 (rowGeo false 0 0 (edgePoint 1 s)).2.2 =
        -cross3 (rowGeo false 0 1 (edgePoint 1 s)).2.1 (rowGeo false 0 1 (edgePoint 1 s)).2.2 ∧
      cross3 (rowGeo false 0 0 (edgePoint 1 s)).2.1 (rowGeo false 0 0 (edgePoint 1 s)).2.2 ≠ 0 := by
  obtain ⟨t, h1, h2⟩ := C54_partial _ (rowCorner false) 2 0 (by omega) (row_conforming false) (rowGeo false 0)
  refine ⟨t, h1, h2.2 ?_, ⟨by omega, by omega, by omega, by omega, by omega, ?_⟩, ?_⟩
  · intro p q i k hI _ _
    have e : (rowGeo false 0 0 (edgePoint 1 (1 / 2))).1 = !₂[1, 1 / 2, 0] ∧ (rowGeo false 0 1 (edgePoint 1 (1 / 2))).1 = !₂[1, 1 / 2, 0] := by
      constructor
      · simp [rowGeo, edgePoint]
      · simp [rowGeo, edgePoint]; norm_num
    rcases row_interface false p q i k hI with ⟨rfl, rfl, rfl, hk⟩ | ⟨rfl, rfl, rfl, hk⟩
    all_goals
      simp only [Bool.false_eq_true, if_false] at hk
      subst hk
      rw [e.1, e.2, sub_self, norm_zero]
      refine ⟨by norm_num, ?_⟩
      rw [real_inner_self_eq_norm_sq]
      have : (!₂[1, 1 / 2, 0] : V3) ≠ 0 := fun h => by simpa using congrArg (fun v : V3 => v 0) h
      positivity
  · rw [← edgeTest_iff]; decide +kernel
  · intro s
    refine ⟨?_, ?_, ?_⟩
    · simp [rowGeo, edgePoint]; norm_num
    · ext j; fin_cases j <;> simp [rowGeo, cross3]
    · intro h
      have := congrArg (fun v : V3 => v 2) h
      simp [rowGeo, cross3] at this

/-- C54: a consistently oriented surface with equal normals everywhere fails the test if the midpoint of an interface is at the
origin. -/
theorem C54_rejects : ∃ t : Mesh.Tree ℝ, initElementTree (fun a b : Nat => a == b) (rowCorner true) 2 0 = some t ∧
    OrientedPatches (rowCorner true) 2 ∧ NormalsAgree (rowCorner true) 2 (rowGeo true !₂[-1, -1 / 2, 0]) ∧
    (∀ s : ℝ, (rowGeo true !₂[-1, -1 / 2, 0] 0 (edgePoint 1 s)).1 = (rowGeo true !₂[-1, -1 / 2, 0] 1 (edgePoint 3 (1 - s))).1) ∧
    ¬ checkOrientation (rowGeo true !₂[-1, -1 / 2, 0]) t := by
  obtain ⟨t, h1, h2⟩ := C54_partial _ (rowCorner true) 2 0 (by omega) (row_conforming true) (rowGeo true !₂[-1, -1 / 2, 0])
  refine ⟨t, h1, ?_, ?_, ?_, ?_⟩
  · intro p hp q hq hpq i hi k hk h
    rcases row_interface true p q i k ⟨hp, hq, hpq, hi, hk, h⟩ with ⟨rfl, rfl, rfl, hk'⟩ | ⟨rfl, rfl, rfl, hk'⟩
    all_goals
      rw [if_pos rfl] at hk'
      subst hk'
      decide
  · intro p q i k hI s _ _
    have : ∀ p s, cross3 (rowGeo true !₂[-1, -1 / 2, 0] p s).2.1 (rowGeo true !₂[-1, -1 / 2, 0] p s).2.2 = !₂[0, 0, 1] := by
      intro p s
      ext j
      by_cases hp : p = 0 <;> fin_cases j <;> simp [rowGeo, cross3, hp]
    simp only [this]
    simp [PiLp.inner_apply, Fin.sum_univ_three]
  · intro s; simp [rowGeo, edgePoint]
  · rw [h2]
    intro h
    have := (h 0 1 1 3 ⟨by omega, by omega, by omega, by omega, by omega, by rw [← edgeTest_iff]; decide +kernel⟩ (by omega) (by omega)).2
    simp [rowGeo, edgePoint, PiLp.inner_apply, Fin.sum_univ_three] at this
    norm_num at this

/-- The hypotheses of `C54_watertight` are met by the row of two squares, wherever it lies. -/
example (d : V3) (p q i k : Nat) (h : Interface (rowCorner true) 2 p q i k) :
    ConformingPatches (fun a b : Nat => a == b) (rowCorner true) 2 ∧
    (rowGeo true d p (edgePoint i (1 / 2))).1 = (rowGeo true d q (edgePoint k (1 / 2))).1 := by
  refine ⟨row_conforming true, ?_⟩
  rcases row_interface true p q i k h with ⟨rfl, rfl, rfl, hk'⟩ | ⟨rfl, rfl, rfl, hk'⟩
  all_goals
    rw [if_pos rfl] at hk'
    subst hk'
    simp [rowGeo, edgePoint]
    try norm_num

end Bembel.Props
