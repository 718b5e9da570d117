import Verif.Lemmas.MeshConf
/-!
# Refining one element of a conforming mesh (dynamic part)
-/

set_option linter.unusedSectionVars false

namespace Bembel
namespace Mesh

open Basis

variable {K : Type} [Field K]

/-- the refined neighbour across edge `i` -/
def sh (t : Tree K) (cur : Addr) (i : Nat) : Option Addr :=
  match t.adj cur i with
  | some b => if t.refined b then some b else none
  | none => none

theorem sh_some {t : Tree K} {cur b : Addr} {i : Nat} : sh t cur i = some b ↔
    t.adj cur i = some b ∧ t.refined b = true := by
  unfold sh
  cases t.adj cur i with
  | none => simp
  | some c =>
    dsimp only
    by_cases h : t.refined c
    · rw [if_pos h]
      constructor
      · intro hh; injection hh with hh; subst hh; exact ⟨rfl, h⟩
      · rintro ⟨hh, _⟩; exact hh
    · rw [if_neg h]
      constructor
      · intro hh; cases hh
      · rintro ⟨hh, h2⟩; injection hh with hh; subst hh; exact absurd h2 h

/-- number of new points on the first `n` edges -/
def cnt (t : Tree K) (cur : Addr) : Nat → Nat
  | 0 => 0
  | n + 1 => cnt t cur n + if sh t cur n = none then 1 else 0

theorem cnt_mono (t : Tree K) (cur : Addr) {i j : Nat} (h : i ≤ j) : cnt t cur i ≤ cnt t cur j := by
  induction j with
  | zero => obtain rfl : i = 0 := by omega
            exact le_rfl
  | succ j ih =>
    rcases Nat.lt_or_ge i (j + 1) with h' | h'
    · exact (ih (by omega)).trans (by rw [cnt]; omega)
    · obtain rfl : i = j + 1 := by omega
      exact le_rfl

theorem cnt_lt (t : Tree K) (cur : Addr) {i j : Nat} (h : i < j) (hi : sh t cur i = none) :
    cnt t cur i < cnt t cur j := by
  have h1 := cnt_mono t cur (show i + 1 ≤ j by omega)
  rw [cnt, if_pos hi] at h1
  omega

theorem points_loop (t : Tree K) (cur : Addr) (n : Nat) :
    let st := forLoop n (pointStep t cur) (fun _ => 0, t.nPoints, [])
    st.2.1 = t.nPoints + cnt t cur n ∧
    (∀ i < n, ∀ b, sh t cur i = some b →
      st.1 i = mid t.vert b (refNeighbour t.adj cur b)) ∧
    (∀ i < n, sh t cur i = none → st.1 i = t.nPoints + cnt t cur i) ∧
    st.2.2 = (List.range n).flatMap (fun i => match sh t cur i with
      | some b => [son b (refNeighbour t.adj cur b), son b ((refNeighbour t.adj cur b + 1) % 4)]
      | none => []) := by
  induction n with
  | zero => exact ⟨rfl, by intro i hi; omega, by intro i hi; omega, rfl⟩
  | succ n ih =>
    dsimp only at ih ⊢
    rw [forLoop_succ]
    generalize forLoop n (pointStep t cur) (fun _ => 0, t.nPoints, []) = st at ih ⊢
    obtain ⟨h1, h2, h3, h4⟩ := ih
    have hs : pointStep t cur st n = match sh t cur n with
      | some b => (upd st.1 n (mid t.vert b (refNeighbour t.adj cur b)), st.2.1,
          st.2.2 ++ [son b (refNeighbour t.adj cur b), son b ((refNeighbour t.adj cur b + 1) % 4)])
      | none => (upd st.1 n st.2.1, st.2.1 + 1, st.2.2) := by
      unfold pointStep sh
      cases t.adj cur n with
      | none => rfl
      | some b =>
        dsimp only
        by_cases h : t.refined b
        · rw [if_pos h, if_pos h]; rfl
        · rw [if_neg h, if_neg h]
    rw [hs, List.range_succ, List.flatMap_append, List.flatMap_singleton, ← h4, cnt]
    cases hsh : sh t cur n with
    | none =>
      dsimp only
      refine ⟨by rw [h1, if_pos rfl]; omega, ?_, ?_, by simp⟩
      · intro i hi b hb
        have hin : i ≠ n := by rintro rfl; rw [hsh] at hb; cases hb
        simp only [upd, if_neg hin]
        exact h2 i (by omega) b hb
      · intro i hi hb
        by_cases hin : i = n
        · subst hin; simp [upd, h1]
        · simp only [upd, if_neg hin]
          exact h3 i (by omega) hb
    | some c =>
      dsimp only
      refine ⟨by rw [h1]; simp, ?_, ?_, rfl⟩
      · intro i hi b hb
        by_cases hin : i = n
        · subst hin
          rw [hsh] at hb
          injection hb with hb
          subst hb
          simp [upd]
        · simp only [upd, if_neg hin]
          exact h2 i (by omega) b hb
      · intro i hi hb
        have hin : i ≠ n := by rintro rfl; rw [hsh] at hb; cases hb
        simp only [upd, if_neg hin]
        exact h3 i (by omega) hb

/-- edges of a list of elements -/
def edgesF (vert : Addr → Nat → Nat) (L : List Addr) : Finset (Sym2 Nat) :=
  (L.flatMap fun a => (List.range 4).map (E vert a)).toFinset

theorem mem_edgesF {vert : Addr → Nat → Nat} {L : List Addr} {e : Sym2 Nat} :
    e ∈ edgesF vert L ↔ ∃ a ∈ L, ∃ j < 4, e = E vert a j := by
  unfold edgesF
  simp only [List.mem_toFinset, List.mem_flatMap, List.mem_map, List.mem_range]
  constructor
  · rintro ⟨a, ha, j, hj, rfl⟩; exact ⟨a, ha, j, hj, rfl⟩
  · rintro ⟨a, ha, j, hj, rfl⟩; exact ⟨a, ha, j, hj, rfl⟩

/-- Situation in the middle of a pass over the level with elements `S`. -/
structure Pass (u : Tree K) (S : Addr → Prop) (k N : Nat) (pre : List Addr) : Prop where
  len : ∀ b, S b → b.2.length = k
  sub : ∀ b ∈ pre, S b
  conf : Conf u.vert S N
  adj : AdjOK u.vert u.adj S
  refd : Refd u.vert (· ∈ pre) N u.nPoints
  sadj : AdjOK u.vert u.adj (SonsOf (· ∈ pre))
  refined : ∀ b, S b → (u.refined b = true ↔ b ∈ pre)
  count : u.nPoints = N + (edgesF u.vert pre).card + pre.length

variable {u : Tree K} {S : Addr → Prop} {k N : Nat} {pre : List Addr} {a : Addr}

/-- the neighbour's edge is found -/
theorem sh_spec (h : Pass u S k N pre) (ha : S a) {i : Nat} (hi : i < 4) {b : Addr} (hb : sh u a i = some b) :
    b ∈ pre ∧ b ≠ a ∧ refNeighbour u.adj a b < 4 ∧ E u.vert b (refNeighbour u.adj a b) = E u.vert a i := by
  obtain ⟨h1, h2⟩ := sh_some.1 hb
  obtain ⟨sb, hne, k0, hk0, hE⟩ := (h.adj a ha i hi b).1 h1
  have hpre := (h.refined b sb).1 h2
  have hadj : u.adj b k0 = some a := (h.adj b sb k0 hk0 a).2 ⟨ha, hne.symm, i, hi, hE.symm⟩
  have hr : refNeighbour u.adj a b = k0 := by
    unfold refNeighbour
    have : (List.range 4).find? (fun j => decide (u.adj b j = some a)) = some k0 := by
      rw [List.find?_range_eq_some]
      refine ⟨by simpa using hadj, List.mem_range.2 hk0, ?_⟩
      intro j hj
      have : u.adj b j ≠ some a := by
        intro hh
        obtain ⟨_, _, l, hl, hE'⟩ := (h.adj b sb j (by omega) a).1 hh
        have := h.conf.one b a j k0 l i sb ha hne (by omega) hk0 hl hi hE'.symm hE
        omega
      simpa using this
    rw [this]; rfl
  rw [hr]
  exact ⟨hpre, hne, hk0, hE⟩

/-- a new midpoint is created iff no refined element shares the edge -/
theorem sh_none (h : Pass u S k N pre) (ha : S a) {i : Nat} (hi : i < 4) :
    (sh u a i = none) ↔ ∀ b ∈ pre, b ≠ a → ∀ j < 4, E u.vert b j ≠ E u.vert a i := by
  constructor
  · intro hs b hb hne j hj hE
    have h1 := (h.adj a ha i hi b).2 ⟨h.sub b hb, hne, j, hj, hE⟩
    have : sh u a i = some b := sh_some.2 ⟨h1, (h.refined b (h.sub b hb)).2 hb⟩
    rw [this] at hs
    cases hs
  · intro hs
    cases hc : sh u a i with
    | none => rfl
    | some b =>
      obtain ⟨h1, h2, h3, h4⟩ := sh_spec h ha hi hc
      exact absurd h4 (hs b h1 h2 _ h3)

theorem E_congr {v v' : Addr → Nat → Nat} {a : Addr} (h : v a = v' a) (j : Nat) : E v a j = E v' a j := by
  unfold E elementEdge; rw [h]

/-! ### the new vertex numbers -/

/-- description of the vertices after refining `a` -/
theorem new_vert (h : Pass u S k N pre) (ha : S a) (hnp : a ∉ pre) :
    (∀ b, b ∉ sons a → (refineLeaf u a).vert b = u.vert b) ∧
    (∀ i < 4, (refineLeaf u a).vert (son a i) i = u.vert a i) ∧
    (∀ i < 4, (refineLeaf u a).vert (son a i) ((i + 2) % 4) = ctr (refineLeaf u a).vert a) ∧
    (∀ i < 4, (refineLeaf u a).vert (son a i) ((i + 3) % 4) = mid (refineLeaf u a).vert a ((i + 3) % 4)) ∧
    ctr (refineLeaf u a).vert a = u.nPoints + cnt u a 4 ∧
    (∀ i < 4, ∀ b, sh u a i = some b → mid (refineLeaf u a).vert a i = mid u.vert b (refNeighbour u.adj a b)) ∧
    (∀ i < 4, sh u a i = none → mid (refineLeaf u a).vert a i = u.nPoints + cnt u a i) ∧
    (refineLeaf u a).nPoints = u.nPoints + cnt u a 4 + 1 := by
  have hnr : u.refined a = false := by
    rw [Bool.eq_false_iff]
    intro hh
    exact hnp ((h.refined a ha).1 hh)
  obtain ⟨_, _, _, _, _, _, _, _, _, _, e11, e12, _⟩ := refineLeaf_eqs u a hnr
  obtain ⟨p1, p2, p3, _⟩ := points_loop u a 4
  generalize hst : forLoop 4 (pointStep u a) (fun _ => 0, u.nPoints, []) = st at *
  rw [e12, e11]
  unfold mid ctr
  have hson : ∀ i < 4, ∀ j, setSons u.vert a (fun i => sonVertex (u.vert a) (upd st.1 4 st.2.1) i) (son a i) j =
      sonVertex (u.vert a) (upd st.1 4 st.2.1) i j := by
    intro i hi j
    rw [setSons_son _ _ _ _ hi]
  refine ⟨fun b hb => setSons_other _ _ _ _ hb, ?_, ?_, ?_, ?_, ?_, ?_, ?_⟩
  · intro i hi
    rw [hson i hi]
    rcases lt4 hi with rfl | rfl | rfl | rfl <;> rfl
  · intro i hi
    rw [hson i hi, hson 0 (by omega)]
    rcases lt4 hi with rfl | rfl | rfl | rfl <;> rfl
  · intro i hi
    rw [hson i hi, hson _ (by omega)]
    rcases lt4 hi with rfl | rfl | rfl | rfl <;> rfl
  · rw [hson 0 (by omega), ← p1]
    rfl
  · intro i hi b hb
    rw [hson i hi]
    have := p2 i hi b hb
    unfold mid at this
    rw [← this]
    rcases lt4 hi with rfl | rfl | rfl | rfl <;> rfl
  · intro i hi hb
    rw [hson i hi]
    rw [← p3 i hi hb]
    rcases lt4 hi with rfl | rfl | rfl | rfl <;> rfl
  · rw [p1]

theorem not_sons_of_len (h : Pass u S k N pre) (ha : S a) {b : Addr} (hb : S b) : b ∉ sons a := by
  rw [mem_sons]
  rintro ⟨i, _, rfl⟩
  have := h.len _ hb
  simp only [son, List.length_cons] at this
  have := h.len _ ha
  omega

theorem new_refd (h : Pass u S k N pre) (ha : S a) (hnp : a ∉ pre) :
    Refd (refineLeaf u a).vert (· ∈ pre ++ [a]) N (refineLeaf u a).nPoints := by
  obtain ⟨n1, n2, n3, n4, n5, n6, n7, n8⟩ := new_vert h ha hnp
  have hvS : ∀ b, S b → (refineLeaf u a).vert b = u.vert b := fun b hb => n1 b (not_sons_of_len h ha hb)
  have hson : ∀ b ∈ pre, ∀ i, (refineLeaf u a).vert (son b i) = u.vert (son b i) := by
    intro b hb i
    apply n1
    rw [mem_sons]
    rintro ⟨j, _, hj⟩
    have := (son_inj.1 hj).1
    subst this
    exact hnp hb
  have hmid : ∀ b ∈ pre, ∀ i, mid (refineLeaf u a).vert b i = mid u.vert b i := by
    intro b hb i; unfold mid; rw [hson b hb]
  have hctr : ∀ b ∈ pre, ctr (refineLeaf u a).vert b = ctr u.vert b := by
    intro b hb; unfold ctr; rw [hson b hb]
  have hE : ∀ b, S b → ∀ j, E (refineLeaf u a).vert b j = E u.vert b j := fun b hb j => E_congr (hvS b hb) j
  have hmem : ∀ b, b ∈ pre ++ [a] ↔ b ∈ pre ∨ b = a := by intro b; simp
  have R := h.refd
  have hS : ∀ b, b ∈ pre ++ [a] → S b := by
    intro b hb
    rcases (hmem b).1 hb with hb | rfl
    · exact h.sub b hb
    · exact ha
  -- either the midpoint is that of a refined neighbour, or it is new
  have hcase : ∀ i < 4, (∃ b ∈ pre, ∃ r < 4, E u.vert b r = E u.vert a i ∧
      mid (refineLeaf u a).vert a i = mid u.vert b r) ∨
      (sh u a i = none ∧ mid (refineLeaf u a).vert a i = u.nPoints + cnt u a i) := by
    intro i hi
    cases hs : sh u a i with
    | none => exact Or.inr ⟨rfl, n7 i hi hs⟩
    | some b =>
      obtain ⟨q1, q2, q3, q4⟩ := sh_spec h ha hi hs
      exact Or.inl ⟨b, q1, _, q3, q4, n6 i hi b hs⟩
  have hprea : ∀ b ∈ pre, ∀ i < 4, ∀ j < 4, (mid u.vert b i = mid (refineLeaf u a).vert a j ↔
      E u.vert b i = E u.vert a j) := by
    intro b hb i hi j hj
    rcases hcase j hj with ⟨c, hc, r, hr, q1, q2⟩ | ⟨q1, q2⟩
    · rw [q2, R.mid_iff b c i r hb hc hi hr, q1]
    · rw [q2]
      have := R.mid_rng b hb i hi
      constructor
      · intro hh; omega
      · intro hh
        have hne : b ≠ a := by rintro rfl; exact hnp hb
        exact absurd hh ((sh_none h ha hj).1 q1 b hb hne i hi)
  refine ⟨by rw [n8]; have := R.le; omega, ?_, ?_, ?_, ?_, ?_, ?_, ?_, ?_, ?_⟩
  · intro b hb i hi
    rcases (hmem b).1 hb with hb | rfl
    · rw [hson b hb, hvS b (h.sub b hb)]; exact R.v0 b hb i hi
    · rw [hvS b ha]; exact n2 i hi
  · intro b hb i hi
    rcases (hmem b).1 hb with hb | rfl
    · rw [hson b hb, hctr b hb]; exact R.v2 b hb i hi
    · exact n3 i hi
  · intro b hb i hi
    rcases (hmem b).1 hb with hb | rfl
    · rw [hson b hb, hmid b hb]; exact R.v3 b hb i hi
    · exact n4 i hi
  · intro b hb i hi
    rcases (hmem b).1 hb with hb | rfl
    · rw [hmid b hb, n8]
      have := R.mid_rng b hb i hi
      omega
    · rcases hcase i hi with ⟨c, hc, r, hr, q1, q2⟩ | ⟨q1, q2⟩
      · rw [q2, n8]
        have := R.mid_rng c hc r hr
        omega
      · rw [q2, n8]
        have := cnt_lt u b hi q1
        have := R.le
        omega
  · intro b hb
    rcases (hmem b).1 hb with hb | rfl
    · rw [hctr b hb, n8]
      have := R.ctr_rng b hb
      omega
    · rw [n5, n8]
      have := R.le
      omega
  · intro b c i j hb hc hi hj
    rw [hE b (hS b hb), hE c (hS c hc)]
    rcases (hmem b).1 hb with hb | hb
    · rcases (hmem c).1 hc with hc | hc
      · rw [hmid b hb, hmid c hc]; exact R.mid_iff b c i j hb hc hi hj
      · rw [hc, hmid b hb]; exact hprea b hb i hi j hj
    · subst hb
      rcases (hmem c).1 hc with hc | hc
      · rw [hmid c hc, eq_comm, hprea c hc j hj i hi, eq_comm]
      · subst hc
        constructor
        · intro hh
          rcases hcase i hi with ⟨b1, hb1, r1, hr1, q1, q2⟩ | ⟨q1, q2⟩
          · rw [q2, hprea b1 hb1 r1 hr1 j hj] at hh
            exact q1.symm.trans hh
          · rcases hcase j hj with ⟨b2, hb2, r2, hr2, q3, q4⟩ | ⟨q3, q4⟩
            · rw [q2, q4] at hh
              have := R.mid_rng b2 hb2 r2 hr2
              omega
            · rw [q2, q4] at hh
              rcases Nat.lt_trichotomy i j with hij | hij | hij
              · have := cnt_lt u c hij q1; omega
              · rw [hij]
              · have := cnt_lt u c hij q3; omega
        · intro hh
          rw [E_inj_of (h.conf.inj c ha) i hi j hj hh]
  · intro b c hb hc hh
    rcases (hmem b).1 hb with hb | hb
    · rcases (hmem c).1 hc with hc | hc
      · rw [hctr b hb, hctr c hc] at hh; exact R.ctr_inj b c hb hc hh
      · rw [hc, hctr b hb, n5] at hh
        have := R.ctr_rng b hb
        omega
    · subst hb
      rcases (hmem c).1 hc with hc | hc
      · rw [hctr c hc, n5] at hh
        have := R.ctr_rng c hc
        omega
      · exact hc.symm
  · intro b c i hb hc hi
    rcases (hmem b).1 hb with hb | hb
    · rw [hmid b hb]
      have h1 := R.mid_rng b hb i hi
      rcases (hmem c).1 hc with hc | hc
      · rw [hctr c hc]; exact R.mid_ctr b c i hb hc hi
      · subst hc
        rw [n5]; omega
    · subst hb
      rcases hcase i hi with ⟨b1, hb1, r1, hr1, q1, q2⟩ | ⟨q1, q2⟩
      · rw [q2]
        have h1 := R.mid_rng b1 hb1 r1 hr1
        rcases (hmem c).1 hc with hc | hc
        · rw [hctr c hc]; exact R.mid_ctr b1 c r1 hb1 hc hr1
        · subst hc
          rw [n5]; omega
      · rw [q2]
        rcases (hmem c).1 hc with hc | hc
        · rw [hctr c hc]
          have := R.ctr_rng c hc
          omega
        · subst hc
          rw [n5]
          have := cnt_lt u c hi q1
          omega
  · intro n h1 h2
    rw [n8] at h2
    rcases Nat.lt_or_ge n u.nPoints with hn | hn
    · rcases R.surj n h1 hn with ⟨b, i, hb, hi, rfl⟩ | ⟨b, hb, rfl⟩
      · exact Or.inl ⟨b, i, by simp [hb], hi, (hmid b hb i).symm⟩
      · exact Or.inr ⟨b, by simp [hb], (hctr b hb).symm⟩
    · rcases Nat.lt_or_ge n (u.nPoints + cnt u a 4) with hn2 | hn2
      · -- one of the new midpoints
        have : ∀ m, u.nPoints ≤ n → n < u.nPoints + cnt u a m → ∃ i < m, sh u a i = none ∧ n = u.nPoints + cnt u a i := by
          intro m
          induction m with
          | zero => intro _ hh; rw [cnt] at hh; omega
          | succ m ih =>
            intro q1 q2
            rw [cnt] at q2
            rcases Nat.lt_or_ge n (u.nPoints + cnt u a m) with q3 | q3
            · obtain ⟨i, hi, q⟩ := ih q1 q3
              exact ⟨i, by omega, q⟩
            · split_ifs at q2 with q4
              · exact ⟨m, by omega, q4, by omega⟩
              · omega
        obtain ⟨i, hi, q1, q2⟩ := this 4 hn hn2
        exact Or.inl ⟨a, i, by simp, hi, by rw [q2, n7 i hi q1]⟩
      · exact Or.inr ⟨a, by simp, by rw [n5]; omega⟩

/-! ### the new neighbour pointers -/

theorem new_adj (h : Pass u S k N pre) (ha : S a) (hnp : a ∉ pre) :
    AdjOK (refineLeaf u a).vert (refineLeaf u a).adj (SonsOf (· ∈ pre ++ [a])) ∧
    (∀ b, b.2.length ≤ k → (refineLeaf u a).adj b = u.adj b) := by
  have R' := new_refd h ha hnp
  obtain ⟨n1, n2, n3, n4, n5, n6, n7, n8⟩ := new_vert h ha hnp
  have hvS : ∀ b, S b → (refineLeaf u a).vert b = u.vert b := fun b hb => n1 b (not_sons_of_len h ha hb)
  have hson : ∀ b ∈ pre, ∀ i, (refineLeaf u a).vert (son b i) = u.vert (son b i) := by
    intro b hb i
    apply n1
    rw [mem_sons]
    rintro ⟨j, _, hj⟩
    have := (son_inj.1 hj).1
    subst this
    exact hnp hb
  have hE : ∀ b, S b → ∀ j, E (refineLeaf u a).vert b j = E u.vert b j := fun b hb j => E_congr (hvS b hb) j
  have hmem : ∀ b, b ∈ pre ++ [a] ↔ b ∈ pre ∨ b = a := by intro b; simp
  have hS : ∀ b, b ∈ pre ++ [a] → S b := by
    intro b hb
    rcases (hmem b).1 hb with hb | rfl
    · exact h.sub b hb
    · exact ha
  have c' : Conf (refineLeaf u a).vert (· ∈ pre ++ [a]) N := by
    have c := h.conf
    refine ⟨?_, ?_, ?_, ?_⟩
    · intro b hb j hj; rw [hvS b (hS b hb)]; exact c.lt b (hS b hb) j hj
    · intro b hb j hj l hl; rw [hvS b (hS b hb)]; exact c.inj b (hS b hb) j hj l hl
    · intro x y z i j l hx hy hz
      rw [hE x (hS x hx), hE y (hS y hy), hE z (hS z hz)]
      exact c.two x y z i j l (hS x hx) (hS y hy) (hS z hz)
    · intro x y i i' j j' hx hy
      rw [hE x (hS x hx), hE y (hS y hy), hE x (hS x hx), hE y (hS y hy)]
      exact c.one x y i i' j j' (hS x hx) (hS y hy)
  have cs := conf_sons c' R'
  have hnr : u.refined a = false := by
    rw [Bool.eq_false_iff]
    intro hh
    exact hnp ((h.refined a ha).1 hh)
  obtain ⟨_, _, _, _, _, _, _, _, _, _, _, e12, e13⟩ := refineLeaf_eqs u a hnr
  obtain ⟨_, _, _, p4⟩ := points_loop u a 4
  rw [← e12] at e13
  generalize hels : (forLoop 4 (pointStep u a) (fun _ => 0, u.nPoints, [])).2.2 ++ sons a = els at *
  rw [p4] at hels
  have hmemels : ∀ s, s ∈ els ↔ (∃ i < 4, ∃ b, sh u a i = some b ∧
      (s = son b (refNeighbour u.adj a b) ∨ s = son b ((refNeighbour u.adj a b + 1) % 4))) ∨ s ∈ sons a := by
    intro s
    rw [← hels, List.mem_append, List.mem_flatMap]
    refine or_congr ?_ Iff.rfl
    constructor
    · rintro ⟨i, hi, hs⟩
      cases hsh : sh u a i with
      | none => rw [hsh] at hs; simp at hs
      | some b =>
        rw [hsh] at hs
        exact ⟨i, List.mem_range.1 hi, b, hsh, by simpa using hs⟩
    · rintro ⟨i, hi, b, hsh, hs⟩
      refine ⟨i, List.mem_range.2 hi, ?_⟩
      rw [hsh]
      simpa using hs
  have hsub : ∀ s ∈ els, SonsOf (· ∈ pre ++ [a]) s := by
    intro s hs
    rcases (hmemels s).1 hs with ⟨i, hi, b, hb, hs | hs⟩ | hs
    · obtain ⟨q1, q2, q3, q4⟩ := sh_spec h ha hi hb
      exact ⟨b, by simp [q1], _, q3, hs⟩
    · obtain ⟨q1, q2, q3, q4⟩ := sh_spec h ha hi hb
      exact ⟨b, by simp [q1], _, Nat.mod_lt _ (by omega), hs⟩
    · obtain ⟨i, hi, hs⟩ := mem_sons.1 hs
      exact ⟨a, by simp, i, hi, hs⟩
  have hnd : els.Nodup := by
    rw [← hels, List.nodup_append]
    refine ⟨?_, sons_nodup a, ?_⟩
    · rw [List.nodup_flatMap]
      refine ⟨?_, ?_⟩
      · intro i hi
        rw [List.mem_range] at hi
        cases hsh : sh u a i with
        | none => simp
        | some b =>
          obtain ⟨q1, q2, q3, q4⟩ := sh_spec h ha hi hsh
          simp only [List.nodup_cons, List.mem_singleton, List.not_mem_nil, not_false_eq_true, List.nodup_nil,
            and_true]
          intro hh
          have := (son_inj.1 hh).2
          omega
      · refine List.nodup_range.imp_of_mem ?_
        intro i j hi hj hij
        rw [List.mem_range] at hi hj
        rw [Function.onFun, List.disjoint_left]
        intro x hx hy
        cases hsi : sh u a i with
        | none => rw [hsi] at hx; simp at hx
        | some b =>
          cases hsj : sh u a j with
          | none => rw [hsj] at hy; simp at hy
          | some c =>
            rw [hsi] at hx
            rw [hsj] at hy
            obtain ⟨q1, q2, q3, q4⟩ := sh_spec h ha hi hsi
            obtain ⟨r1, r2, r3, r4⟩ := sh_spec h ha hj hsj
            have hbc : b = c := by
              simp only [List.mem_cons, List.not_mem_nil, or_false] at hx hy
              rcases hx with hx | hx <;> rcases hy with hy | hy <;>
              · rw [hx] at hy
                exact (son_inj.1 hy).1
            subst hbc
            exact hij (h.conf.one a b i j _ _ ha (h.sub b q1) q2.symm hi hj q3 r3 q4.symm r4.symm)
    · intro x hx y hy hxy
      subst hxy
      rw [List.mem_flatMap] at hx
      obtain ⟨i, hi, hx⟩ := hx
      rw [List.mem_range] at hi
      cases hsi : sh u a i with
      | none => rw [hsi] at hx; simp at hx
      | some b =>
        rw [hsi] at hx
        obtain ⟨q1, q2, q3, q4⟩ := sh_spec h ha hi hsi
        obtain ⟨j, hj, rfl⟩ := mem_sons.1 hy
        simp only [List.mem_cons, List.not_mem_nil, or_false] at hx
        rcases hx with hx | hx
        · exact q2 (son_inj.1 hx).1.symm
        · exact q2 (son_inj.1 hx).1.symm
  obtain ⟨T1, T2⟩ := updateTopology_spec (refineLeaf u a).vert (setSons u.adj a (fun _ _ => none)) els hnd
    (fun e he => E_inj_of (cs.inj e (hsub e he)))
    (fun x y z i j l hx hy hz => cs.two x y z i j l (hsub x hx) (hsub y hy) (hsub z hz))
  rw [← e13] at T1 T2
  -- sons of refined elements touching a son of a are in the list
  have htouch : ∀ b ∈ pre, ∀ i < 4, ∀ j < 4, ∀ i' < 4, ∀ j' < 4,
      E (refineLeaf u a).vert (son b i) j = E (refineLeaf u a).vert (son a i') j' → son b i ∈ els := by
    intro b hb i hi j hj i' hi' j' hj' hh
    rw [son_edge_eq c' R' (by simp [hb]) (by simp) hi hj hi' hj'] at hh
    have hba : b ≠ a := by rintro rfl; exact hnp hb
    rcases hh with ⟨o1, o2, x1, x2⟩ | ⟨_, _, x, _⟩
    · rw [hE b (h.sub b hb), hE a ha] at x2
      have hadj := (h.adj a ha j' hj' b).2 ⟨h.sub b hb, hba, j, hj, x2⟩
      have hsh : sh u a j' = some b := sh_some.2 ⟨hadj, (h.refined b (h.sub b hb)).2 hb⟩
      obtain ⟨q1, q2, q3, q4⟩ := sh_spec h ha hj' hsh
      have hr : refNeighbour u.adj a b = j :=
        E_inj_of (h.conf.inj b (h.sub b hb)) _ q3 _ hj (q4.trans x2.symm)
      rw [hmemels]
      refine Or.inl ⟨j', hj', b, hsh, ?_⟩
      rw [hr]
      rcases o1 with o1 | o1
      · exact Or.inl (by rw [o1])
      · exact Or.inr (by rw [o1])
    · exact absurd x hba
  refine ⟨?_, ?_⟩
  · intro s hs j hj s'
    obtain ⟨b, hb0, i, hi, rfl⟩ := hs
    have hs' : SonsOf (· ∈ pre ++ [a]) (son b i) := ⟨b, hb0, i, hi, rfl⟩
    -- a partner in the list decides
    by_cases hp : son b i ∈ els ∧ ∃ f ∈ els, f ≠ son b i ∧ ∃ l < 4,
        E (refineLeaf u a).vert f l = E (refineLeaf u a).vert (son b i) j
    · obtain ⟨hin, f, hf, hfne, l, hl, hEf⟩ := hp
      rw [T1 (son b i) f j l hin hf hfne hj hl hEf]
      constructor
      · intro hh
        injection hh with hh
        subst hh
        exact ⟨hsub f hf, hfne, l, hl, hEf⟩
      · rintro ⟨h1, h2, l', hl', h4⟩
        rcases cs.two (son b i) f s' j l l' hs' (hsub f hf) h1 hj hl hl' hEf.symm h4.symm with q | q | q
        · injection q with q _; exact absurd q.symm hfne
        · injection q with q _; exact absurd q.symm h2
        · injection q with q _; rw [q]
    · have hun : (refineLeaf u a).adj (son b i) j = setSons u.adj a (fun _ _ => none) (son b i) j := by
        apply T2
        intro hin _ f hf hfne l hl hEf
        exact hp ⟨hin, f, hf, hfne, l, hl, hEf⟩
      rw [hun]
      rcases (hmem b).1 hb0 with hb | hb
      · -- old son: pointers were right before
        have hnotson : son b i ∉ sons a := by
          rw [mem_sons]
          rintro ⟨j', _, hj'⟩
          have := (son_inj.1 hj').1
          subst this
          exact hnp hb
        rw [setSons_other _ _ _ _ hnotson, h.sadj (son b i) ⟨b, hb, i, hi, rfl⟩ j hj s']
        constructor
        · rintro ⟨⟨d, hd, i', hi', rfl⟩, h2, l, hl, h3⟩
          refine ⟨⟨d, by simp [hd], i', hi', rfl⟩, h2, l, hl, ?_⟩
          rw [E_congr (hson d hd i'), E_congr (hson b hb i)]
          exact h3
        · rintro ⟨⟨d, hd, i', hi', rfl⟩, h2, l, hl, h3⟩
          rcases (hmem d).1 hd with hd | hd
          · refine ⟨⟨d, hd, i', hi', rfl⟩, h2, l, hl, ?_⟩
            rw [E_congr (hson d hd i'), E_congr (hson b hb i)] at h3
            exact h3
          · subst hd
            exfalso
            apply hp
            exact ⟨htouch b hb i hi j hj i' hi' l hl h3.symm, son d i', (hmemels _).2
              (Or.inr (mem_sons.2 ⟨i', hi', rfl⟩)), h2, l, hl, h3⟩
      · subst hb
        rw [setSons_son _ _ _ _ hi]
        constructor
        · intro hh; cases hh
        · rintro ⟨⟨d, hd, i', hi', rfl⟩, h2, l, hl, h3⟩
          exfalso
          apply hp
          have hin : son b i ∈ els := (hmemels _).2 (Or.inr (mem_sons.2 ⟨i, hi, rfl⟩))
          rcases (hmem d).1 hd with hd | hd
          · exact ⟨hin, son d i', htouch d hd i' hi' l hl i hi j hj h3, h2, l, hl, h3⟩
          · subst hd
            exact ⟨hin, son d i', (hmemels _).2 (Or.inr (mem_sons.2 ⟨i', hi', rfl⟩)), h2, l, hl, h3⟩
  · intro b hb
    have hnotson : b ∉ sons a := by
      rw [mem_sons]
      rintro ⟨j', _, rfl⟩
      have := h.len a ha
      simp only [son, List.length_cons] at hb
      omega
    funext j
    rw [T2 b j, setSons_other _ _ _ _ hnotson]
    intro hin
    obtain ⟨d, hd, i, hi, rfl⟩ := hsub b hin
    have := h.len d (hS d hd)
    simp only [son, List.length_cons] at hb
    omega

/-! ### counting -/

theorem edges_card (h : Pass u S k N pre) (ha : S a) (hnp : a ∉ pre) :
    (edgesF u.vert (pre ++ [a])).card = (edgesF u.vert pre).card + cnt u a 4 := by
  have hA : ∀ n, n ≤ 4 → (edgesF u.vert pre ∪ ((List.range n).map (E u.vert a)).toFinset).card =
      (edgesF u.vert pre).card + cnt u a n := by
    intro n
    induction n with
    | zero => intro _; simp [cnt]
    | succ n ih =>
      intro hn
      have e : edgesF u.vert pre ∪ ((List.range (n + 1)).map (E u.vert a)).toFinset =
          insert (E u.vert a n) (edgesF u.vert pre ∪ ((List.range n).map (E u.vert a)).toFinset) := by
        ext x
        simp only [List.range_succ, List.map_append, List.map_cons, List.map_nil, List.toFinset_append,
          Finset.mem_union, Finset.mem_insert, List.mem_toFinset, List.mem_singleton]
        tauto
      rw [e, cnt, ← Nat.add_assoc, ← ih (by omega)]
      have hmem : E u.vert a n ∈ edgesF u.vert pre ∪ ((List.range n).map (E u.vert a)).toFinset ↔
          sh u a n ≠ none := by
        rw [Finset.mem_union, mem_edgesF, List.mem_toFinset, List.mem_map]
        constructor
        · rintro (⟨b, hb, j, hj, hE⟩ | ⟨j, hj, hE⟩)
          · intro hs
            exact (sh_none h ha (by omega)).1 hs b hb (by rintro rfl; exact hnp hb) j hj hE.symm
          · rw [List.mem_range] at hj
            have := E_inj_of (h.conf.inj a ha) j (by omega) n (by omega) hE
            omega
        · intro hs
          cases hc : sh u a n with
          | none => exact absurd hc hs
          | some b =>
            obtain ⟨q1, q2, q3, q4⟩ := sh_spec h ha (by omega) hc
            exact Or.inl ⟨b, q1, _, q3, q4.symm⟩
      by_cases hs : sh u a n = none
      · rw [Finset.card_insert_of_notMem (fun hh => (hmem.1 hh) hs), if_pos hs]
      · rw [Finset.insert_eq_of_mem (hmem.2 hs), if_neg hs]; omega
  have := hA 4 le_rfl
  rw [← this]
  congr 1
  unfold edgesF
  rw [List.flatMap_append, List.flatMap_singleton, List.toFinset_append]

/-- One step of the pass. -/
theorem pass_step (h : Pass u S k N pre) (ha : S a) (hnp : a ∉ pre) :
    Pass (refineLeaf u a) S k N (pre ++ [a]) := by
  obtain ⟨n1, n2, n3, n4, n5, n6, n7, n8⟩ := new_vert h ha hnp
  have hvS : ∀ b, S b → (refineLeaf u a).vert b = u.vert b := fun b hb => n1 b (not_sons_of_len h ha hb)
  have hE : ∀ b, S b → ∀ j, E (refineLeaf u a).vert b j = E u.vert b j := fun b hb j => E_congr (hvS b hb) j
  obtain ⟨A1, A2⟩ := new_adj h ha hnp
  have hS : ∀ b, b ∈ pre ++ [a] → S b := by
    intro b hb
    rcases List.mem_append.1 hb with hb | hb
    · exact h.sub b hb
    · rw [List.mem_singleton] at hb; rw [hb]; exact ha
  refine ⟨h.len, hS, ?_, ?_, new_refd h ha hnp, A1, ?_, ?_⟩
  · have c := h.conf
    refine ⟨?_, ?_, ?_, ?_⟩
    · intro b hb j hj; rw [hvS b hb]; exact c.lt b hb j hj
    · intro b hb j hj l hl; rw [hvS b hb]; exact c.inj b hb j hj l hl
    · intro x y z i j l hx hy hz
      rw [hE x hx, hE y hy, hE z hz]
      exact c.two x y z i j l hx hy hz
    · intro x y i i' j j' hx hy
      rw [hE x hx, hE y hy, hE x hx, hE y hy]
      exact c.one x y i i' j j' hx hy
  · intro b hb j hj d
    rw [A2 b (by rw [h.len b hb]), h.adj b hb j hj d]
    constructor
    · rintro ⟨h1, h2, l, hl, h3⟩
      exact ⟨h1, h2, l, hl, by rw [hE d h1, hE b hb]; exact h3⟩
    · rintro ⟨h1, h2, l, hl, h3⟩
      rw [hE d h1, hE b hb] at h3
      exact ⟨h1, h2, l, hl, h3⟩
  · intro b hb
    rw [refineLeaf_refined]
    by_cases hba : b = a
    · simp [hba]
    · rw [if_neg hba, h.refined b hb]; simp [hba]
  · have e : edgesF (refineLeaf u a).vert (pre ++ [a]) = edgesF u.vert (pre ++ [a]) := by
      ext x
      rw [mem_edgesF, mem_edgesF]
      constructor
      · rintro ⟨b, hb, j, hj, rfl⟩; exact ⟨b, hb, j, hj, hE b (hS b hb) j⟩
      · rintro ⟨b, hb, j, hj, rfl⟩; exact ⟨b, hb, j, hj, (hE b (hS b hb) j).symm⟩
    rw [e, edges_card h ha hnp, n8, h.count, List.length_append, List.length_singleton]
    omega

end Mesh
end Bembel
