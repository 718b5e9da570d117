import Verif.Props.Mesh
import Mathlib.Tactic.FieldSimp
import Mathlib.Tactic.Linarith
/-!
# Property theorems C21 (tiling) and C26 (lexicographic reordering)
-/

set_option linter.unusedSectionVars false

namespace Bembel.Props

open Bembel.Basis Bembel.Mesh

section
variable {K : Type} [Field K] [LinearOrder K] [IsStrictOrderedRing K] [FloorRing K]
  {V : Type} (near : V → V → Bool) (corner : Nat → Nat → V)

/-- Position of a parameter in `[0,1)` on the grid with `2^l` cells. -/
theorem grid_cell (l : Nat) (x : K) (h0 : 0 ≤ x) (h1 : x < 1) : ∃ i : Nat, i < 2 ^ l ∧
    (i : K) / 2 ^ l ≤ x ∧ x < (i : K) / 2 ^ l + 1 / 2 ^ l := by
  have hp : (0 : K) < 2 ^ l := by positivity
  refine ⟨⌊x * 2 ^ l⌋.toNat, ?_, ?_, ?_⟩
  · have hf : ⌊x * 2 ^ l⌋ < 2 ^ l := by
      rw [Int.floor_lt]
      push_cast
      nlinarith
    have : 0 ≤ ⌊x * 2 ^ l⌋ := Int.floor_nonneg.2 (by positivity)
    zify
    rw [Int.toNat_of_nonneg this]
    exact_mod_cast hf
  all_goals
    have hn : 0 ≤ ⌊x * 2 ^ l⌋ := Int.floor_nonneg.2 (by positivity)
    have e : ((⌊x * 2 ^ l⌋.toNat : Nat) : K) = (⌊x * 2 ^ l⌋ : K) := by
      have := Int.toNat_of_nonneg hn
      exact_mod_cast congrArg (Int.cast (R := K)) this
    rw [e]
  · rw [div_le_iff₀ hp]; exact Int.floor_le _
  · rw [← add_div, lt_div_iff₀ hp]; exact Int.lt_floor_add_one _

theorem grid_cell_unique (l i j : Nat) (x : K) (h1 : (i : K) / 2 ^ l ≤ x) (h2 : x < (i : K) / 2 ^ l + 1 / 2 ^ l)
    (h3 : (j : K) / 2 ^ l ≤ x) (h4 : x < (j : K) / 2 ^ l + 1 / 2 ^ l) : i = j := by
  have hp : (0 : K) < 2 ^ l := by positivity
  rw [← add_div, lt_div_iff₀ hp] at h2 h4
  rw [div_le_iff₀ hp] at h1 h3
  have a1 : (i : K) < j + 1 := lt_of_le_of_lt h1 h4
  have a2 : (j : K) < i + 1 := lt_of_le_of_lt h3 h2
  have b1 : i < j + 1 := by exact_mod_cast a1
  have b2 : j < i + 1 := by exact_mod_cast a2
  omega

theorem node_at (P l p x y : Nat) (hp : p < P) (hx : x < 2 ^ l) (hy : y < 2 ^ l) :
    ∃ a, IsNode P l a ∧ a.1 = p ∧ posX a.2 = x ∧ posY a.2 = y := by
  obtain ⟨w, h1, h2, h3, h4⟩ := pos_surj l x y hx hy
  exact ⟨(p, w), ⟨hp, h1, h2⟩, rfl, h3, h4⟩

/-- C21: on every level `l ≤ M` and every patch, each point of `[0,1)²` is in exactly one of the half-open squares
`llc + [0,h)²` of the elements of that level and patch, and each point of the closed unit square is in one of the
closed squares; all squares are inside the unit square, and `h = 2^-l`. -/
theorem C21_tiling (P M : Nat) (hP : 0 < P) : ∃ t : Mesh.Tree K, initElementTree near corner P M = some t ∧
    ∀ l ≤ M, ∀ p < P,
      (∀ x y : K, 0 ≤ x → x < 1 → 0 ≤ y → y < 1 → ∃! a, (IsNode P l a ∧ t.patch a = p) ∧
        (t.llc a).1 ≤ x ∧ x < (t.llc a).1 + getH t a ∧ (t.llc a).2 ≤ y ∧ y < (t.llc a).2 + getH t a) ∧
      (∀ x y : K, 0 ≤ x → x ≤ 1 → 0 ≤ y → y ≤ 1 → ∃ a, (IsNode P l a ∧ t.patch a = p) ∧
        (t.llc a).1 ≤ x ∧ x ≤ (t.llc a).1 + getH t a ∧ (t.llc a).2 ≤ y ∧ y ≤ (t.llc a).2 + getH t a) ∧
      (∀ a, IsNode P l a → t.patch a = p → getH t a = 1 / 2 ^ l ∧ 0 ≤ (t.llc a).1 ∧
        (t.llc a).1 + getH t a ≤ 1 ∧ 0 ≤ (t.llc a).2 ∧ (t.llc a).2 + getH t a ≤ 1) := by
  obtain ⟨t, h1, h2, h3, h4, h5, h6, h7⟩ := tree_facts (K := K) near corner P M hP
  refine ⟨t, h1, ?_⟩
  intro l hl p hp
  have hpos : (0 : K) < 2 ^ l := by positivity
  have good : ∀ a, IsNode P l a → t.patch a = a.1 ∧ getH t a = 1 / 2 ^ l ∧
      t.llc a = ((posX a.2 : K) / 2 ^ l, (posY a.2 : K) / 2 ^ l) := by
    intro a ha
    obtain ⟨_, g2, g3, g4⟩ := h2 l hl a (mem_leaves.2 ha)
    rw [ha.2.1] at g2 g4
    exact ⟨g3, by unfold getH; rw [g2], g4⟩
  refine ⟨?_, ?_, ?_⟩
  · intro x y hx0 hx1 hy0 hy1
    obtain ⟨i, hi, i1, i2⟩ := grid_cell l x hx0 hx1
    obtain ⟨j, hj, j1, j2⟩ := grid_cell l y hy0 hy1
    obtain ⟨a, ha, ap, ax, ay⟩ := node_at P l p i j hp hi hj
    obtain ⟨q1, q2, q3⟩ := good a ha
    refine ⟨a, ⟨⟨ha, by rw [q1, ap]⟩, ?_⟩, ?_⟩
    · rw [q2, q3, ax, ay]; exact ⟨i1, i2, j1, j2⟩
    · rintro b ⟨⟨hb, hbp⟩, b1, b2, b3, b4⟩
      obtain ⟨r1, r2, r3⟩ := good b hb
      rw [r2, r3] at b2 b4
      rw [r3] at b1 b3
      have e1 := grid_cell_unique l _ _ x i1 i2 b1 b2
      have e2 := grid_cell_unique l _ _ y j1 j2 b3 b4
      apply Prod.ext
      · rw [← r1, hbp, ap]
      · exact pos_inj _ _ (by rw [hb.2.1, ha.2.1]) hb.2.2 ha.2.2 (by rw [← e1, ax]) (by rw [← e2, ay])
  · intro x y hx0 hx1 hy0 hy1
    have cell : ∀ z : K, 0 ≤ z → z ≤ 1 → ∃ i : Nat, i < 2 ^ l ∧ (i : K) / 2 ^ l ≤ z ∧
        z ≤ (i : K) / 2 ^ l + 1 / 2 ^ l := by
      intro z h0 h1
      rcases lt_or_eq_of_le h1 with h | h
      · obtain ⟨i, hi, a, b⟩ := grid_cell l z h0 h
        exact ⟨i, hi, a, b.le⟩
      · have hpn : 0 < 2 ^ l := Nat.two_pow_pos l
        have e : (((2 ^ l - 1 : Nat)) : K) = 2 ^ l - 1 := by
          rw [Nat.cast_sub hpn]; push_cast; ring
        refine ⟨2 ^ l - 1, by omega, ?_, ?_⟩
        · rw [e, h, div_le_iff₀ hpos]; linarith
        · rw [e, h, ← add_div, le_div_iff₀ hpos]; linarith
    obtain ⟨i, hi, i1, i2⟩ := cell x hx0 hx1
    obtain ⟨j, hj, j1, j2⟩ := cell y hy0 hy1
    obtain ⟨a, ha, ap, ax, ay⟩ := node_at P l p i j hp hi hj
    obtain ⟨q1, q2, q3⟩ := good a ha
    refine ⟨a, ⟨ha, by rw [q1, ap]⟩, ?_⟩
    rw [q2, q3, ax, ay]; exact ⟨i1, i2, j1, j2⟩
  · intro a ha _
    obtain ⟨q1, q2, q3⟩ := good a ha
    have hlt := pos_lt a.2
    rw [ha.2.1] at hlt
    have x1 : ((posX a.2 : Nat) : K) + 1 ≤ 2 ^ l := by exact_mod_cast hlt.1
    have y1 : ((posY a.2 : Nat) : K) + 1 ≤ 2 ^ l := by exact_mod_cast hlt.2
    refine ⟨q2, ?_, ?_, ?_, ?_⟩
    · rw [q3]; positivity
    · rw [q2, q3, ← add_div, div_le_iff₀ hpos]; linarith
    · rw [q3]; positivity
    · rw [q2, q3, ← add_div, div_le_iff₀ hpos]; linarith

/-- C21, local coordinates: on every element the map to the reference element and `ξ ↦ llc + h ξ` are inverse to
each other, and a point is in the closed square of the element exactly if its reference coordinates are in
`[0,1]²`; the reference midpoint has the reference coordinates `(1/2, 1/2)`. -/
theorem C21_reference_map (P M : Nat) (hP : 0 < P) : ∃ t : Mesh.Tree K, initElementTree near corner P M = some t ∧
    ∀ l ≤ M, ∀ a, IsNode P l a →
      (∀ xi : K × K, mapToReferenceElement t a
        ((t.llc a).1 + getH t a * xi.1, (t.llc a).2 + getH t a * xi.2) = xi) ∧
      (∀ x : K × K, ((t.llc a).1 + getH t a * (mapToReferenceElement t a x).1,
        (t.llc a).2 + getH t a * (mapToReferenceElement t a x).2) = x) ∧
      (∀ x : K × K, ((t.llc a).1 ≤ x.1 ∧ x.1 ≤ (t.llc a).1 + getH t a ∧ (t.llc a).2 ≤ x.2 ∧
          x.2 ≤ (t.llc a).2 + getH t a) ↔
        (0 ≤ (mapToReferenceElement t a x).1 ∧ (mapToReferenceElement t a x).1 ≤ 1 ∧
          0 ≤ (mapToReferenceElement t a x).2 ∧ (mapToReferenceElement t a x).2 ≤ 1)) ∧
      mapToReferenceElement t a (referenceMidpoint t a) = (1 / 2, 1 / 2) := by
  obtain ⟨t, h1, h2, h3, h4, h5, h6, h7⟩ := tree_facts (K := K) near corner P M hP
  refine ⟨t, h1, ?_⟩
  intro l hl a ha
  obtain ⟨_, g2, g3, g4⟩ := h2 l hl a (mem_leaves.2 ha)
  have hh : 0 < getH t a := by unfold getH; positivity
  generalize hgh : getH t a = h at hh
  refine ⟨?_, ?_, ?_, ?_⟩
  · intro xi
    unfold mapToReferenceElement
    rw [hgh]
    refine Prod.ext ?_ ?_ <;> · dsimp only; field_simp; ring
  · intro x
    unfold mapToReferenceElement
    rw [hgh]
    refine Prod.ext ?_ ?_ <;> · dsimp only; field_simp; ring
  · intro x
    unfold mapToReferenceElement
    rw [hgh]
    dsimp only
    rw [le_div_iff₀ hh, div_le_iff₀ hh, le_div_iff₀ hh, div_le_iff₀ hh]
    constructor <;> rintro ⟨a1, a2, a3, a4⟩ <;> refine ⟨?_, ?_, ?_, ?_⟩ <;> linarith
  · unfold mapToReferenceElement referenceMidpoint
    rw [hgh]
    refine Prod.ext ?_ ?_ <;> · dsimp only; field_simp; ring

/-- Non-vacuity: six patches, two refinements. -/
example : ∃ t : Mesh.Tree ℚ, initElementTree (fun (a b : Nat) => a == b) (fun i j => i + j) 6 2 = some t ∧
    ∃! a, (IsNode 6 2 a ∧ t.patch a = 3) ∧ (t.llc a).1 ≤ 1/3 ∧ 1/3 < (t.llc a).1 + getH t a ∧
      (t.llc a).2 ≤ 3/4 ∧ 3/4 < (t.llc a).2 + getH t a := by
  obtain ⟨t, h1, h2⟩ := C21_tiling (K := ℚ) (fun (a b : Nat) => a == b) (fun i j => i + j) 6 2 (by omega)
  exact ⟨t, h1, (h2 2 le_rfl 3 (by omega)).1 _ _ (by norm_num) (by norm_num) (by norm_num) (by norm_num)⟩

/-! ## C26 -/

/-- Lexicographic number of the cell occupied by a node. -/
def lexIdx (M : Nat) (a : Addr) : Nat := a.1 * (2 ^ M * 2 ^ M) + posY a.2 * 2 ^ M + posX a.2

theorem lex_inj (N p q y1 y2 x1 x2 : Nat) (hx1 : x1 < N) (hx2 : x2 < N) (hy1 : y1 < N) (hy2 : y2 < N)
    (h : p * (N * N) + y1 * N + x1 = q * (N * N) + y2 * N + x2) : p = q ∧ y1 = y2 ∧ x1 = x2 := by
  have e1 : (p * N + y1) * N + x1 = (q * N + y2) * N + x2 := by
    have a : (p * N + y1) * N = p * (N * N) + y1 * N := by ring
    have b : (q * N + y2) * N = q * (N * N) + y2 * N := by ring
    omega
  have hN : 0 < N := by omega
  have d1 : ∀ a b : Nat, b < N → (a * N + b) / N = a ∧ (a * N + b) % N = b := by
    intro a b hb
    constructor
    · rw [Nat.add_comm, Nat.add_mul_div_right _ _ hN, Nat.div_eq_of_lt hb]; omega
    · rw [Nat.add_comm, Nat.add_mul_mod_self_right, Nat.mod_eq_of_lt hb]
  have e2 : p * N + y1 = q * N + y2 := by
    have := congrArg (· / N) e1
    simpa [(d1 _ _ hx1).1, (d1 _ _ hx2).1] using this
  have e3 : x1 = x2 := by
    have := congrArg (· % N) e1
    simpa [(d1 _ _ hx1).2, (d1 _ _ hx2).2] using this
  have e4 : p = q := by
    have := congrArg (· / N) e2
    simpa [(d1 _ _ hy1).1, (d1 _ _ hy2).1] using this
  have e5 : y1 = y2 := by
    have := congrArg (· % N) e2
    simpa [(d1 _ _ hy1).2, (d1 _ _ hy2).2] using this
  exact ⟨e4, e5, e3⟩

theorem foldlM_upd {α : Type} (f : (Nat → Nat) → α → Option (Nat → Nat)) (idx val : α → Nat) (L : List α) :
    ∀ out : Nat → Nat, (∀ a ∈ L, ∀ o, f o a = some (upd o (idx a) (val a))) → (L.map idx).Nodup →
    ∃ o, L.foldlM f out = some o ∧ (∀ a ∈ L, o (idx a) = val a) ∧ ∀ n, n ∉ L.map idx → o n = out n := by
  induction L with
  | nil => intro out _ _; exact ⟨out, rfl, by simp, by simp⟩
  | cons a L ih =>
    intro out hf hn
    rw [List.map_cons, List.nodup_cons] at hn
    obtain ⟨o, h1, h2, h3⟩ := ih (upd out (idx a) (val a)) (fun b hb => hf b (by simp [hb])) hn.2
    refine ⟨o, ?_, ?_, ?_⟩
    · rw [List.foldlM_cons, hf a (by simp)]; exact h1
    · intro b hb
      rcases List.mem_cons.1 hb with rfl | hb
      · rw [h3 _ hn.1]; simp [upd]
      · exact h2 b hb
    · intro n hnn
      rw [List.map_cons, List.mem_cons, not_or] at hnn
      rw [h3 n hnn.2]
      simp [upd, hnn.1]

theorem lexIdx_lt (P M : Nat) (a : Addr) (ha : IsNode P M a) : lexIdx M a < P * 4 ^ M := by
  have h := pos_lt a.2
  rw [ha.2.1] at h
  have e : 4 ^ M = 2 ^ M * 2 ^ M := by rw [← mul_pow]; rfl
  rw [e]
  unfold lexIdx
  have h1 := ha.1
  generalize 2 ^ M = N at *
  calc a.1 * (N * N) + posY a.2 * N + posX a.2 < a.1 * (N * N) + posY a.2 * N + N := by omega
    _ = a.1 * (N * N) + (posY a.2 + 1) * N := by ring
    _ ≤ a.1 * (N * N) + N * N := by
      have : (posY a.2 + 1) * N ≤ N * N := Nat.mul_le_mul_right _ h.2
      omega
    _ = (a.1 + 1) * (N * N) := by ring
    _ ≤ P * (N * N) := Nat.mul_le_mul_right _ h1

/-- C26: the reordering vector is computed without writing out of range, and entry `p·4^M + y·2^M + x` is the id of
an element of patch `p` with lower left corner `(x, y)·2^-M`; the vector is a permutation of the element ids
`0, …, P·4^M - 1`. -/
theorem C26_reordering (P M : Nat) (hP : 0 < P) : ∃ t : Mesh.Tree K, initElementTree near corner P M = some t ∧
    ∃ out : Nat → Nat, computeReorderingVector (fun x : K => ⌊x⌋) t = some out ∧
    (∀ p x y : Nat, p < P → x < 2 ^ M → y < 2 ^ M → ∃ a, IsNode P M a ∧ t.patch a = p ∧
      t.llc a = ((x : K) / 2 ^ M, (y : K) / 2 ^ M) ∧ out (p * 4 ^ M + y * 2 ^ M + x) = t.id a) ∧
    (∀ i < P * 4 ^ M, out i < P * 4 ^ M) ∧ (∀ n < P * 4 ^ M, ∃! i, i < P * 4 ^ M ∧ out i = n) := by
  obtain ⟨t, h1, h2, h3, h4, h5, h6, h7⟩ := tree_facts (K := K) near corner P M hP
  refine ⟨t, h1, ?_⟩
  have hM : 4 ^ M = 2 ^ M * 2 ^ M := by rw [← mul_pow]; rfl
  have hstep : ∀ a ∈ leaves P M, ∀ o, reorderStep (fun x : K => ⌊x⌋) t o a = some (upd o (lexIdx M a) (t.id a)) := by
    intro a ha o
    obtain ⟨g1, g2, g3, g4⟩ := h2 M le_rfl a ha
    have hn : IsNode P M a := mem_leaves.1 ha
    have hfl : ∀ n : Nat, ⌊((n : K) / 2 ^ M + 1 / 2 * (1 / 2 ^ M)) / (1 / 2 ^ M)⌋ = (n : Int) := by
      intro n
      have hpos : (0 : K) < 2 ^ M := by positivity
      have e : ((n : K) / 2 ^ M + 1 / 2 * (1 / 2 ^ M)) / (1 / 2 ^ M) = n + 1 / 2 := by field_simp
      rw [e, Int.floor_eq_iff]
      push_cast
      constructor
      · linarith
      · linarith
    unfold reorderStep getH
    dsimp only
    rw [g2, g3, g4, hn.2.1, h4, h3]
    dsimp only
    rw [hfl, hfl]
    have hlt := lexIdx_lt P M a hn
    have e : (((a.1 * (2 ^ M * 2 ^ M) : Nat) : Int) + (posY a.2 : Int) * ((2 ^ M : Nat) : Int) + (posX a.2 : Int)) =
        ((lexIdx M a : Nat) : Int) := by unfold lexIdx; push_cast; ring
    rw [e, if_pos ⟨by omega, by exact_mod_cast hlt⟩]
    rfl
  have hnd : ((leaves P M).map (lexIdx M)).Nodup := by
    refine (List.nodup_map_iff_inj_on (leaves_nodup P M)).2 ?_
    intro a ha b hb hab
    have ha' := mem_leaves.1 ha
    have hb' := mem_leaves.1 hb
    have pa := pos_lt a.2
    have pb := pos_lt b.2
    rw [ha'.2.1] at pa
    rw [hb'.2.1] at pb
    obtain ⟨e1, e2, e3⟩ := lex_inj _ _ _ _ _ _ _ pa.1 pb.1 pa.2 pb.2 hab
    exact Prod.ext e1 (pos_inj _ _ (by rw [ha'.2.1, hb'.2.1]) ha'.2.2 hb'.2.2 e3 e2)
  obtain ⟨out, o1, o2, _⟩ := foldlM_upd (reorderStep (fun x : K => ⌊x⌋) t) (lexIdx M) t.id (leaves P M) (fun _ => 0)
    hstep hnd
  have hout : ∀ p x y : Nat, p < P → x < 2 ^ M → y < 2 ^ M → ∃ a, IsNode P M a ∧ t.patch a = p ∧
      t.llc a = ((x : K) / 2 ^ M, (y : K) / 2 ^ M) ∧ out (p * 4 ^ M + y * 2 ^ M + x) = t.id a := by
    intro p x y hp hx hy
    obtain ⟨a, ha, ap, ax, ay⟩ := node_at P M p x y hp hx hy
    have hm : a ∈ leaves P M := mem_leaves.2 ha
    obtain ⟨g1, g2, g3, g4⟩ := h2 M le_rfl a hm
    refine ⟨a, ha, by rw [g3, ap], by rw [g4, ha.2.1, ax, ay], ?_⟩
    have := o2 a hm
    unfold lexIdx at this
    rw [ap, ax, ay, ← hM] at this
    exact this
  have hids : ∀ a, IsNode P M a → t.id a = pathId a.1 a.2 := fun a ha => (h2 M le_rfl a (mem_leaves.2 ha)).1
  -- every index is the index of a leaf
  have hsurj : ∀ i < P * 4 ^ M, ∃ a, IsNode P M a ∧ lexIdx M a = i := by
    intro i hi
    have hN : 0 < 2 ^ M := Nat.two_pow_pos M
    rw [hM] at hi
    have hp : i / (2 ^ M * 2 ^ M) < P := by
      rw [Nat.div_lt_iff_lt_mul (Nat.mul_pos hN hN)]; exact hi
    have hy : i / 2 ^ M % 2 ^ M < 2 ^ M := Nat.mod_lt _ hN
    obtain ⟨a, ha, ap, ax, ay⟩ := node_at P M _ (i % 2 ^ M) _ hp (Nat.mod_lt _ hN) hy
    refine ⟨a, ha, ?_⟩
    unfold lexIdx
    rw [ap, ax, ay, ← Nat.div_div_eq_div_mul]
    have q1 := Nat.div_add_mod i (2 ^ M)
    have q2 := Nat.div_add_mod (i / 2 ^ M) (2 ^ M)
    calc i / 2 ^ M / 2 ^ M * (2 ^ M * 2 ^ M) + i / 2 ^ M % 2 ^ M * 2 ^ M + i % 2 ^ M
        = 2 ^ M * (2 ^ M * (i / 2 ^ M / 2 ^ M) + i / 2 ^ M % 2 ^ M) + i % 2 ^ M := by ring
      _ = i := by rw [q2, q1]
  refine ⟨out, ?_, hout, ?_, ?_⟩
  · unfold computeReorderingVector
    rw [elements_eq t P M hP h3 h6]
    exact o1
  · intro i hi
    obtain ⟨a, ha, rfl⟩ := hsurj i hi
    rw [o2 a (mem_leaves.2 ha), hids a ha]
    have : pathId a.1 a.2 ∈ (leaves P M).map (fun a => pathId a.1 a.2) := List.mem_map.2 ⟨a, mem_leaves.2 ha, rfl⟩
    rw [leaves_ids, List.mem_range] at this
    exact this
  · intro n hn
    have hmem : n ∈ (leaves P M).map (fun a => pathId a.1 a.2) := by rw [leaves_ids, List.mem_range]; exact hn
    obtain ⟨a, ha, hpa⟩ := List.mem_map.1 hmem
    have ha' : IsNode P M a := mem_leaves.1 ha
    refine ⟨lexIdx M a, ⟨lexIdx_lt P M a ha', by rw [o2 a ha, hids a ha', hpa]⟩, ?_⟩
    rintro i ⟨hi, hoi⟩
    obtain ⟨b, hb, rfl⟩ := hsurj i hi
    rw [o2 b (mem_leaves.2 hb), hids b hb] at hoi
    have hndp : ((leaves P M).map (fun a => pathId a.1 a.2)).Nodup := by rw [leaves_ids]; exact List.nodup_range
    have : b = a := List.inj_on_of_nodup_map hndp (mem_leaves.2 hb) ha (by rw [hoi, hpa])
    rw [this]

/-- Non-vacuity: in a mesh of two patches refined twice, the cell `(3, 1)` of patch 1. -/
example : ∃ t : Mesh.Tree ℚ, initElementTree (fun (a b : Nat) => a == b) (fun i j => i + j) 2 2 = some t ∧
    ∃ out : Nat → Nat, computeReorderingVector (fun x : ℚ => ⌊x⌋) t = some out ∧
    ∃ a, IsNode 2 2 a ∧ t.patch a = 1 ∧ t.llc a = (3 / 4, 1 / 4) ∧ out 23 = t.id a := by
  obtain ⟨t, h1, out, h2, h3, _⟩ := C26_reordering (K := ℚ) (fun (a b : Nat) => a == b) (fun i j => i + j) 2 2
    (by omega)
  refine ⟨t, h1, out, h2, ?_⟩
  obtain ⟨a, q1, q2, q3, q4⟩ := h3 1 3 1 (by omega) (by norm_num) (by norm_num)
  exact ⟨a, q1, q2, by rw [q3]; norm_num, by simpa using q4⟩

end

end Bembel.Props
