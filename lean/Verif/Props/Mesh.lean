import Verif.Lemmas.MeshLinks
import Mathlib.Algebra.Order.Floor.Ring
import Mathlib.Data.Rat.Floor
/-!
# Property theorems C20, C21, C25, C26, C27: the uniformly refined mesh

`near` and `corner` (point comparison and corner images of the patches) are arbitrary: these
properties do not depend on the topology.
-/

set_option linter.unusedSectionVars false

namespace Bembel.Props

open Bembel.Basis Bembel.Mesh

/-! ## positions and numbers -/

theorem pathId_div (p : Nat) (l : List Nat) (h : ∀ x ∈ l, x < 4) : pathId p l / 4 ^ l.length = p := by
  induction l with
  | nil => simp [pathId]
  | cons i l ih =>
    have hi := h i (by simp)
    rw [pathId, List.length_cons, pow_succ, Nat.mul_comm (4 ^ l.length) 4, ← Nat.div_div_eq_div_mul]
    rw [show (4 * pathId p l + i) / 4 = pathId p l by omega]
    exact ih (fun x hx => h x (by simp [hx]))

theorem range_four (n : Nat) : (List.range n).flatMap (fun i => [4 * i, 4 * i + 1, 4 * i + 2, 4 * i + 3]) =
    List.range (4 * n) := by
  induction n with
  | zero => rfl
  | succ n ih =>
    rw [List.range_succ, List.flatMap_append, ih, show 4 * (n + 1) = 4 * n + 1 + 1 + 1 + 1 by omega,
      List.range_succ, List.range_succ, List.range_succ, List.range_succ]
    simp

theorem flatMap_sons_ids (L : List Addr) : (L.flatMap sons).map (fun a => pathId a.1 a.2) =
    (L.map fun a => pathId a.1 a.2).flatMap (fun i => [4 * i, 4 * i + 1, 4 * i + 2, 4 * i + 3]) := by
  induction L with
  | nil => rfl
  | cons a L ih =>
    rw [List.flatMap_cons, List.map_append, ih, List.map_cons, List.flatMap_cons]
    rfl

theorem leaves_ids (P k : Nat) : (leaves P k).map (fun a => pathId a.1 a.2) = List.range (P * 4 ^ k) := by
  induction k with
  | zero =>
    unfold leaves below
    rw [← List.map_eq_flatMap, List.map_map]
    simp only [pow_zero, mul_one]
    exact List.map_id _
  | succ k ih => rw [leaves_succ, flatMap_sons_ids, ih, range_four, pow_succ]; congr 1; ring

theorem below_ids (a : Addr) (k : Nat) : (below a k).map (fun b => pathId b.1 b.2) =
    (List.range (4 ^ k)).map (fun i => pathId a.1 a.2 * 4 ^ k + i) := by
  induction k with
  | zero => simp [below]
  | succ k ih =>
    rw [below, flatMap_sons_ids, ih, pow_succ, Nat.mul_comm (4 ^ k) 4, ← range_four, List.map_flatMap,
      List.flatMap_map]
    congr 1
    funext i
    simp only [List.map_cons, List.map_nil]
    congr 1 <;> ring_nf

theorem pos_lt (l : List Nat) : posX l < 2 ^ l.length ∧ posY l < 2 ^ l.length := by
  induction l with
  | nil => simp [posX, posY]
  | cons i l ih =>
    rw [posX, posY, List.length_cons, pow_succ]
    constructor <;> split_ifs <;> omega

theorem pos_inj (l : List Nat) : ∀ m : List Nat, l.length = m.length → (∀ x ∈ l, x < 4) → (∀ x ∈ m, x < 4) →
    posX l = posX m → posY l = posY m → l = m := by
  induction l with
  | nil => intro m h _ _ _ _; exact (List.length_eq_zero_iff.1 h.symm).symm
  | cons i l ih =>
    intro m h hl hm hx hy
    match m, h with
    | j :: m, h =>
      have hi := hl i (by simp)
      have hj := hm j (by simp)
      rw [posX, posX] at hx
      rw [posY, posY] at hy
      have := ih m (by simpa using h) (fun x hx => hl x (by simp [hx])) (fun x hx => hm x (by simp [hx]))
        (by split_ifs at hx <;> omega) (by split_ifs at hy <;> omega)
      subst this
      congr 1
      interval_cases i <;> interval_cases j <;> simp_all

theorem pos_surj (k : Nat) : ∀ x y : Nat, x < 2 ^ k → y < 2 ^ k →
    ∃ l : List Nat, l.length = k ∧ (∀ i ∈ l, i < 4) ∧ posX l = x ∧ posY l = y := by
  induction k with
  | zero => intro x y hx hy; exact ⟨[], rfl, by simp, by simp [posX]; omega, by simp [posY]; omega⟩
  | succ k ih =>
    intro x y hx hy
    rw [pow_succ] at hx hy
    obtain ⟨l, h1, h2, h3, h4⟩ := ih (x / 2) (y / 2) (by omega) (by omega)
    obtain ⟨i, hi, ei⟩ : ∃ i < 4, (if i = 1 ∨ i = 2 then 1 else 0) = x % 2 ∧
        (if i = 2 ∨ i = 3 then 1 else 0) = y % 2 := by
      rcases Nat.mod_two_eq_zero_or_one x with hx | hx <;> rcases Nat.mod_two_eq_zero_or_one y with hy | hy
      · exact ⟨0, by omega, by simp [hx, hy]⟩
      · exact ⟨3, by omega, by simp [hx, hy]⟩
      · exact ⟨1, by omega, by simp [hx, hy]⟩
      · exact ⟨2, by omega, by simp [hx, hy]⟩
    refine ⟨i :: l, by simp [h1], ?_, ?_, ?_⟩
    · intro j hj
      rcases List.mem_cons.1 hj with rfl | hj
      · exact hi
      · exact h2 j hj
    · rw [posX, h3, ei.1]; omega
    · rw [posY, h4, ei.2]; omega

section
variable {K : Type} [Field K] [CharZero K] {V : Type} (near : V → V → Bool) (corner : Nat → Nat → V)

theorem initPatches_good (P M : Nat) : ∀ a ∈ leaves P 0, GoodNode (initPatches near corner P M : Mesh.Tree K) a := by
  intro a ha
  have h := (mem_leaves.1 ha).2.1
  rw [List.length_eq_zero_iff] at h
  obtain ⟨p, l⟩ := a
  simp only at h
  subst h
  refine ⟨rfl, rfl, rfl, ?_⟩
  simp [initPatches, posX, posY]

theorem initPatches_chain (P M : Nat) : Chain (initPatches near corner P M : Mesh.Tree K).links (leaves P 0) := by
  have hl : leaves P 0 = (List.range P).map (fun i => ((i, []) : Addr)) := by
    unfold leaves below
    rw [← List.map_eq_flatMap]
  rw [hl]
  have seg : ∀ (n s : Nat), s + n = P → Seg (initPatches near corner P M : Mesh.Tree K).prev
      (initPatches near corner P M : Mesh.Tree K).next (if s = 0 then none else some (s - 1, []))
      ((List.range' s n).map (fun i => ((i, []) : Addr))) none := by
    intro n
    induction n with
    | zero => intro s _; trivial
    | succ n ih =>
      intro s hs
      rw [List.range'_succ, List.map_cons]
      refine ⟨?_, ?_, ?_⟩
      · simp only [initPatches]
        by_cases h : s = 0 <;> simp [h]
      · simp only [initPatches]
        cases n with
        | zero => simp [hd]; omega
        | succ n => rw [List.range'_succ]; simp [hd]; omega
      · have := ih (s + 1) (by omega)
        simpa using this
  have hseg := seg P 0 (by omega)
  rw [← List.range_eq_range'] at hseg
  rw [if_pos rfl] at hseg
  refine ⟨hseg, ?_, ?_⟩
  · simp only [Tree.links, initPatches]
    cases P with
    | zero => rfl
    | succ P => rw [List.range_succ_eq_map]; simp [hd]
  · simp only [Tree.links, initPatches]
    cases P with
    | zero => rfl
    | succ P => rw [List.range_succ, List.map_append, List.map_singleton, lst_concat]; simp

/-- The facts about the constructed tree that the properties below use. -/
theorem tree_facts (P M : Nat) (hP : 0 < P) : ∃ t : Mesh.Tree K, initElementTree near corner P M = some t ∧
    (∀ j ≤ M, ∀ a ∈ leaves P j, GoodNode t a) ∧ t.nElements = P * 4 ^ M ∧ t.maxLevel = M ∧ t.nPatches = P ∧
    Chain t.links (leaves P M) ∧ (∀ b, t.refined b = true ↔ ∃ j < M, b ∈ leaves P j) := by
  refine ⟨_, initElementTree_eq near corner P M hP, ?_, ?_, ?_, ?_, ?_, ?_⟩
  · exact fields_inv _ P (fun _ => rfl) (initPatches_good near corner P M) M
  · exact nElements_inv _ P (fun _ => rfl) rfl M
  · exact maxLevel_inv _ P (fun _ => rfl) (initPatches_good near corner P M) M le_rfl
  · rw [levelTree_nPatches]; rfl
  · exact links_inv _ P (fun _ => rfl) (initPatches_chain near corner P M) M
  · exact levelTree_refined _ P (fun _ => rfl) M

theorem elements_eq (t : Mesh.Tree K) (P M : Nat) (hP : 0 < P) (hn : t.nElements = P * 4 ^ M)
    (hc : Chain t.links (leaves P M)) : elements t = some (leaves P M) := by
  obtain ⟨hs, hf, hl⟩ := hc
  have hlen := leaves_length P M
  have hne : leaves P M ≠ [] := by
    intro h
    rw [h] at hlen
    have : 0 < P * 4 ^ M := Nat.mul_pos hP (by positivity)
    simp at hlen
    omega
  obtain ⟨A, z, hA⟩ : ∃ A z, leaves P M = A ++ [z] := by
    rcases List.eq_nil_or_concat (leaves P M) with h | ⟨A, z, h⟩
    · exact absurd h hne
    · exact ⟨A, z, by rw [h, List.concat_eq_append]⟩
  unfold elements
  have hl' : t.plast = some z := by
    have : t.links.plast = some z := by rw [hl, hA, lst_concat]
    exact this
  have hz : t.next z = none := by
    have h2 := hs
    rw [hA, seg_append] at h2
    exact h2.2.2.1
  rw [hl']
  simp only [Option.bind_eq_bind, Option.bind_some, hz]
  have hf' : t.pfirst = hd (leaves P M) none := hf
  rw [hf']
  refine walk_seg t.prev t.next _ none none _ hs ?_ (by simp)
  rw [hlen, hn]; omega

/-! ## C20 -/

/-- C20: `P` patches refined `M` times give a mesh of `P * 4^M` elements; iterating over the mesh terminates and
visits `P * 4^M` pairwise different elements, all of level `M`; the `n`-th element visited has element id `n` and
belongs to patch `n / 4^M`. -/
theorem C20_uniform_mesh (P M : Nat) (hP : 0 < P) :
    ∃ t : Mesh.Tree K, initElementTree near corner P M = some t ∧ t.nElements = P * 4 ^ M ∧
    ∃ L : List Addr, elements t = some L ∧ L.length = P * 4 ^ M ∧ L.Nodup ∧
      ∀ (n : Nat) (a : Addr), L[n]? = some a → t.id a = n ∧ t.patch a = n / 4 ^ M ∧ t.level a = M ∧
        t.refined a = false := by
  obtain ⟨t, h1, h2, h3, h4, h5, h6, h7⟩ := tree_facts (K := K) near corner P M hP
  refine ⟨t, h1, h3, leaves P M, elements_eq t P M hP h3 h6, leaves_length P M, leaves_nodup P M, ?_⟩
  intro n a hn
  have ha : a ∈ leaves P M := List.mem_of_getElem? hn
  obtain ⟨g1, g2, g3, _⟩ := h2 M le_rfl a ha
  have hm := mem_leaves.1 ha
  have hid : pathId a.1 a.2 = n := by
    have e := congrArg (fun l : List Nat => l[n]?) (leaves_ids P M)
    simp only [List.getElem?_map, hn, Option.map_some] at e
    have hlt : n < P * 4 ^ M := by
      have := (List.getElem?_eq_some_iff.1 hn).1
      rwa [leaves_length] at this
    rw [List.getElem?_range hlt, Option.some.injEq] at e
    exact e
  refine ⟨by rw [g1, hid], ?_, by rw [g2, hm.2.1], ?_⟩
  · rw [g3, ← hid]
    have := pathId_div a.1 a.2 hm.2.2
    rw [hm.2.1] at this
    exact this.symm
  · rw [Bool.eq_false_iff]
    intro h
    obtain ⟨j, hj, hb⟩ := (h7 a).1 h
    have := (mem_leaves.1 hb).2.1
    omega

/-- Non-vacuity: six patches, refined twice: 96 elements. -/
example : ∃ t : Mesh.Tree ℚ, initElementTree (fun (a b : Nat) => a == b) (fun i j => i + j) 6 2 = some t ∧
    t.nElements = 96 := by
  obtain ⟨t, h1, h2, _⟩ := C20_uniform_mesh (K := ℚ) (fun (a b : Nat) => a == b) (fun i j => i + j) 6 2 (by omega)
  exact ⟨t, h1, by rw [h2]; norm_num⟩

/-! ## C25 -/

theorem leaves_split (P l d : Nat) : leaves P (l + d) = (leaves P l).flatMap (fun a => below a d) := by
  induction d with
  | zero =>
    rw [Nat.add_zero]
    simp only [below]
    rw [← List.map_eq_flatMap, List.map_id']
  | succ d ih => rw [← Nat.add_assoc, leaves_succ, ih, List.flatMap_assoc]; rfl

theorem below_first (a : Addr) (d : Nat) : ∃ B, below a d = (a.1, List.replicate d 0 ++ a.2) :: B := by
  induction d with
  | zero => exact ⟨[], rfl⟩
  | succ d ih =>
    obtain ⟨B, hB⟩ := ih
    rw [below, hB, List.flatMap_cons, sons_eq, List.cons_append]
    exact ⟨_, rfl⟩

theorem below_last (a : Addr) (d : Nat) : ∃ B, below a d = B ++ [(a.1, List.replicate d 3 ++ a.2)] := by
  induction d with
  | zero => exact ⟨[], rfl⟩
  | succ d ih =>
    obtain ⟨B, hB⟩ := ih
    rw [below, hB, List.flatMap_append, List.flatMap_cons, List.flatMap_nil, List.append_nil, sons_eq]
    refine ⟨B.flatMap sons ++ [son (a.1, List.replicate d 3 ++ a.2) 0, son (a.1, List.replicate d 3 ++ a.2) 1,
      son (a.1, List.replicate d 3 ++ a.2) 2], ?_⟩
    rw [List.append_assoc]
    rfl

theorem descend_eq (refined : Addr → Bool) (i P M : Nat) (hi : i < 4)
    (hr : ∀ b, refined b = true ↔ ∃ j < M, b ∈ leaves P j) (d : Nat) : ∀ (a : Addr) (l fuel : Nat),
    a ∈ leaves P l → l + d = M → d < fuel →
    descend refined i fuel a = (a.1, List.replicate d i ++ a.2) := by
  induction d with
  | zero =>
    intro a l fuel ha hl hf
    obtain ⟨f, rfl⟩ : ∃ f, fuel = f + 1 := ⟨fuel - 1, by omega⟩
    have : refined a = false := by
      rw [Bool.eq_false_iff]
      intro h
      obtain ⟨j, hj, hb⟩ := (hr a).1 h
      have e1 := (mem_leaves.1 hb).2.1
      have e2 := (mem_leaves.1 ha).2.1
      omega
    rw [descend, this]
    simp
  | succ d ih =>
    intro a l fuel ha hl hf
    obtain ⟨f, rfl⟩ : ∃ f, fuel = f + 1 := ⟨fuel - 1, by omega⟩
    have : refined a = true := (hr a).2 ⟨l, by omega, ha⟩
    rw [descend, this, if_pos rfl, ih (son a i) (l + 1) f (mem_leaves_succ.2 ⟨a, ha, i, hi, rfl⟩) (by omega) (by omega)]
    simp only [son]
    rw [List.replicate_succ', List.append_assoc]
    rfl

/-- C25: for every cluster (node) of any level `l ≤ M`, iterating from its begin to its end visits exactly
`4^(M-l)` elements, all of them below the cluster, and their element ids are the consecutive numbers
`id * 4^(M-l), …, (id + 1) * 4^(M-l) - 1`; hence clusters with consecutive ids own adjacent ranges. -/
theorem C25_cluster_range (P M : Nat) (hP : 0 < P) : ∃ t : Mesh.Tree K, initElementTree near corner P M = some t ∧
    ∀ (l : Nat) (a : Addr), l ≤ M → IsNode P l a → ∃ L : List Addr, clusterElements t a = some L ∧
      (∀ b, b ∈ L ↔ ∃ path : List Nat, path.length = M - l ∧ (∀ x ∈ path, x < 4) ∧ b = (a.1, path ++ a.2)) ∧
      L.map t.id = (List.range (4 ^ (M - l))).map (fun i => t.id a * 4 ^ (M - l) + i) := by
  obtain ⟨t, h1, h2, h3, h4, h5, h6, h7⟩ := tree_facts (K := K) near corner P M hP
  refine ⟨t, h1, ?_⟩
  intro l a hl ha
  replace ha : a ∈ leaves P l := mem_leaves.2 ha
  obtain ⟨d, rfl⟩ : ∃ d, M = l + d := ⟨M - l, by omega⟩
  rw [show l + d - l = d by omega]
  have hsub : ∀ b ∈ below a d, b ∈ leaves P (l + d) := by
    intro b hb
    rw [leaves_split, List.mem_flatMap]
    exact ⟨a, ha, hb⟩
  refine ⟨below a d, ?_, ?_, ?_⟩
  · obtain ⟨A, B, hAB⟩ := List.append_of_mem ha
    have hsplit : leaves P (l + d) = A.flatMap (fun a => below a d) ++ (below a d ++ B.flatMap (fun a => below a d)) := by
      rw [leaves_split, hAB, List.flatMap_append, List.flatMap_cons]
    obtain ⟨hs, _, _⟩ := h6
    have hnd := leaves_nodup P (l + d)
    rw [hsplit] at hs hnd
    rw [seg_append, seg_append] at hs
    obtain ⟨_, hs2, hs3⟩ := hs
    unfold clusterElements
    rw [descend_eq t.refined 0 P (l + d) (by omega) h7 d a l _ ha rfl (by omega),
      descend_eq t.refined 3 P (l + d) (by omega) h7 d a l _ ha rfl (by omega)]
    obtain ⟨B1, hB1⟩ := below_first a d
    obtain ⟨B2, hB2⟩ := below_last a d
    have hlast : t.next (a.1, List.replicate d 3 ++ a.2) = hd (B.flatMap (fun a => below a d)) none := by
      have h := hs2
      rw [hB2, seg_append] at h
      exact h.2.2.1
    have hfirst : some ((a.1, List.replicate d 0 ++ a.2) : Addr) =
        hd (below a d) (hd (B.flatMap (fun a => below a d)) none) := by rw [hB1]; rfl
    rw [hlast, hfirst]
    refine walk_seg t.prev t.next _ _ _ _ hs2 ?_ ?_
    · rw [below_length, h3]
      calc 4 ^ d ≤ 4 ^ (l + d) := Nat.pow_le_pow_right (by omega) (by omega)
        _ ≤ P * 4 ^ (l + d) := Nat.le_mul_of_pos_left _ hP
        _ ≤ _ := by omega
    · intro x hx hmem
      have := hd_mem _ x hx
      rw [List.nodup_append] at hnd
      have h8 := hnd.2.1
      rw [List.nodup_append] at h8
      exact h8.2.2 x hmem x this rfl
  · intro b
    rw [mem_below]
    constructor
    · rintro ⟨e1, p, e2, e3, e4⟩; exact ⟨p, e3, e4, Prod.ext e1 e2⟩
    · rintro ⟨p, e3, e4, rfl⟩; exact ⟨rfl, p, rfl, e3, e4⟩
  · have e1 : (below a d).map t.id = (below a d).map (fun b => pathId b.1 b.2) := by
      apply List.map_congr_left
      intro b hb
      exact (h2 _ le_rfl b (hsub b hb)).1
    rw [e1, below_ids, (h2 l (by omega) a ha).1]

/-- Non-vacuity: a cluster of level 1 in a mesh of level 3. -/
example : IsNode 6 1 (2, [3]) := by
  simp [IsNode]

/-! ## C27 -/

/-- number of nodes of levels `< l` per patch -/
theorem four_pow_div (l : Nat) : 3 * ((2 ^ l * 2 ^ l - 1) / 3) = 4 ^ l - 1 := by
  have e : 2 ^ l * 2 ^ l = 4 ^ l := by rw [← mul_pow]; rfl
  rw [e]
  have : 4 ^ l % 3 = 1 := by
    rw [Nat.pow_mod]; simp
  have : 0 < 4 ^ l := by positivity
  omega

theorem gid_bounds (P l n : Nat) (hn : n < P * 4 ^ l) :
    P * ((2 ^ l * 2 ^ l - 1) / 3) ≤ P * ((2 ^ l * 2 ^ l - 1) / 3) + n ∧
    P * ((2 ^ l * 2 ^ l - 1) / 3) + n < P * ((2 ^ (l + 1) * 2 ^ (l + 1) - 1) / 3) := by
  refine ⟨by omega, ?_⟩
  have h1 := four_pow_div l
  have h2 := four_pow_div (l + 1)
  generalize (2 ^ l * 2 ^ l - 1) / 3 = A at *
  generalize (2 ^ (l + 1) * 2 ^ (l + 1) - 1) / 3 = B at *
  rw [pow_succ] at h2
  have hpos : 0 < 4 ^ l := by positivity
  have : B = A + 4 ^ l := by omega
  rw [this, Nat.mul_add]
  omega

/-- C27: over all nodes of all levels `≤ M` the global ids are pairwise different, and they are exactly the numbers
below `P * (4^(M+1) - 1)/3`. -/
theorem C27_global_ids (P M : Nat) (hP : 0 < P) : ∃ t : Mesh.Tree K, initElementTree near corner P M = some t ∧
    (∀ a b, (∃ i ≤ M, IsNode P i a) → (∃ j ≤ M, IsNode P j b) →
      computeGlobalId t a = computeGlobalId t b → a = b) ∧
    (∀ n, (∃ a, (∃ i ≤ M, IsNode P i a) ∧ computeGlobalId t a = n) ↔ n < P * ((4 ^ (M + 1) - 1) / 3)) := by
  obtain ⟨t, h1, h2, h3, h4, h5, h6, h7⟩ := tree_facts (K := K) near corner P M hP
  have hid : ∀ i ≤ M, ∀ a ∈ leaves P i, computeGlobalId t a =
      P * ((2 ^ i * 2 ^ i - 1) / 3) + pathId a.1 a.2 ∧ pathId a.1 a.2 < P * 4 ^ i := by
    intro i hi a ha
    obtain ⟨g1, g2, _⟩ := h2 i hi a ha
    refine ⟨by unfold computeGlobalId; rw [h5, g1, g2, (mem_leaves.1 ha).2.1], ?_⟩
    have : pathId a.1 a.2 ∈ (leaves P i).map (fun a => pathId a.1 a.2) := List.mem_map.2 ⟨a, ha, rfl⟩
    rw [leaves_ids, List.mem_range] at this
    exact this
  have hmono : ∀ i j, i ≤ j → P * ((2 ^ i * 2 ^ i - 1) / 3) ≤ P * ((2 ^ j * 2 ^ j - 1) / 3) := by
    intro i j hij
    apply Nat.mul_le_mul_left
    apply Nat.div_le_div_right
    have := Nat.pow_le_pow_right (show 0 < 2 by omega) hij
    have := Nat.mul_le_mul this this
    omega
  refine ⟨t, h1, ?_, ?_⟩
  · rintro a b ⟨i, hi, ha⟩ ⟨j, hj, hb⟩ hab
    replace ha : a ∈ leaves P i := mem_leaves.2 ha
    replace hb : b ∈ leaves P j := mem_leaves.2 hb
    obtain ⟨a1, a2⟩ := hid i hi a ha
    obtain ⟨b1, b2⟩ := hid j hj b hb
    have c1 := gid_bounds P i _ a2
    have c2 := gid_bounds P j _ b2
    rw [a1, b1] at hab
    have hij : i = j := by
      rcases Nat.lt_trichotomy i j with h | h | h
      · have := hmono (i + 1) j h; omega
      · exact h
      · have := hmono (j + 1) i h; omega
    subst hij
    have hpe : pathId a.1 a.2 = pathId b.1 b.2 := by omega
    have hnd : ((leaves P i).map (fun a => pathId a.1 a.2)).Nodup := by rw [leaves_ids]; exact List.nodup_range
    exact List.inj_on_of_nodup_map hnd ha hb hpe
  · intro n
    constructor
    · rintro ⟨a, ⟨i, hi, ha⟩, rfl⟩
      replace ha : a ∈ leaves P i := mem_leaves.2 ha
      obtain ⟨a1, a2⟩ := hid i hi a ha
      have c1 := gid_bounds P i _ a2
      have := hmono (i + 1) (M + 1) (by omega)
      rw [a1]
      have e : 2 ^ (M + 1) * 2 ^ (M + 1) = 4 ^ (M + 1) := by rw [← mul_pow]; rfl
      rw [e] at this
      omega
    · intro hn
      have key : ∀ m, m ≤ M + 1 → n < P * ((2 ^ m * 2 ^ m - 1) / 3) →
          ∃ i < m, P * ((2 ^ i * 2 ^ i - 1) / 3) ≤ n ∧ n < P * ((2 ^ (i + 1) * 2 ^ (i + 1) - 1) / 3) := by
        intro m
        induction m with
        | zero => intro _ h; simp at h
        | succ m ih =>
          intro hm h
          by_cases hlt : n < P * ((2 ^ m * 2 ^ m - 1) / 3)
          · obtain ⟨i, hi, h⟩ := ih (by omega) hlt
            exact ⟨i, by omega, h⟩
          · exact ⟨m, by omega, by omega, h⟩
      have e : 2 ^ (M + 1) * 2 ^ (M + 1) = 4 ^ (M + 1) := by rw [← mul_pow]; rfl
      obtain ⟨i, hi, hlo, hhi⟩ := key (M + 1) le_rfl (by rw [e]; exact hn)
      have hlt : n - P * ((2 ^ i * 2 ^ i - 1) / 3) < P * 4 ^ i := by
        have q1 := four_pow_div i
        have q2 := four_pow_div (i + 1)
        generalize (2 ^ i * 2 ^ i - 1) / 3 = A at *
        generalize (2 ^ (i + 1) * 2 ^ (i + 1) - 1) / 3 = B at *
        rw [pow_succ] at q2
        have hpos : 0 < 4 ^ i := by positivity
        have : B = A + 4 ^ i := by omega
        rw [this, Nat.mul_add] at hhi
        omega
      have hmem : n - P * ((2 ^ i * 2 ^ i - 1) / 3) ∈ (leaves P i).map (fun a => pathId a.1 a.2) := by
        rw [leaves_ids, List.mem_range]; exact hlt
      obtain ⟨a, ha, hpa⟩ := List.mem_map.1 hmem
      refine ⟨a, ⟨i, by omega, mem_leaves.1 ha⟩, ?_⟩
      rw [(hid i (by omega) a ha).1, hpa]
      omega

/-- C27, representability: the `int` expression `(1 << l) * (1 << l) - 1` of the code stays below `2^31` exactly for
levels up to 15; from level 16 on the product overflows. -/
theorem C27_int_range (l : Nat) : 2 ^ l * 2 ^ l < 2 ^ 31 ↔ l ≤ 15 := by
  rw [← pow_add]
  rw [Nat.pow_lt_pow_iff_right (by omega)]
  omega

end

end Bembel.Props
