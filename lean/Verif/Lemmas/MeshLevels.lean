import Verif.Lemmas.MeshPass
/-!
# All levels of the refined mesh are conforming
-/

set_option linter.unusedSectionVars false

namespace Bembel
namespace Mesh

open Basis

variable {K : Type} [Field K]

theorem Conf.congr {v v' : Addr → Nat → Nat} {S S' : Addr → Prop} {N : Nat} (c : Conf v S N)
    (hv : ∀ a, S a → v' a = v a) (hS : ∀ a, S' a → S a) : Conf v' S' N := by
  have hE : ∀ b, S' b → ∀ j, E v' b j = E v b j := fun b hb j => E_congr (hv b (hS b hb)) j
  refine ⟨?_, ?_, ?_, ?_⟩
  · intro b hb j hj; rw [hv b (hS b hb)]; exact c.lt b (hS b hb) j hj
  · intro b hb j hj l hl; rw [hv b (hS b hb)]; exact c.inj b (hS b hb) j hj l hl
  · intro x y z i j l hx hy hz
    rw [hE x hx, hE y hy, hE z hz]
    exact c.two x y z i j l (hS x hx) (hS y hy) (hS z hz)
  · intro x y i i' j j' hx hy
    rw [hE x hx, hE y hy, hE x hx, hE y hy]
    exact c.one x y i i' j j' (hS x hx) (hS y hy)

theorem AdjOK.congr {v v' : Addr → Nat → Nat} {w w' : Addr → Nat → Option Addr} {S S' : Addr → Prop}
    (c : AdjOK v w S) (hv : ∀ a, S a → v' a = v a) (hw : ∀ a, S a → w' a = w a) (hS : ∀ a, S' a ↔ S a) :
    AdjOK v' w' S' := by
  intro b hb j hj d
  have hb' := (hS b).1 hb
  rw [hw b hb', c b hb' j hj d, hS d]
  constructor
  · rintro ⟨h1, h2, l, hl, h3⟩
    exact ⟨h1, h2, l, hl, by rw [E_congr (hv d h1), E_congr (hv b hb')]; exact h3⟩
  · rintro ⟨h1, h2, l, hl, h3⟩
    rw [E_congr (hv d h1), E_congr (hv b hb')] at h3
    exact ⟨h1, h2, l, hl, h3⟩

theorem Refd.congr {v v' : Addr → Nat → Nat} {S : Addr → Prop} {N N' : Nat} (c : Refd v S N N')
    (hv : ∀ a, S a → v' a = v a) (hs : ∀ a, S a → ∀ i < 4, v' (son a i) = v (son a i)) : Refd v' S N N' := by
  have hmid : ∀ a, S a → ∀ i < 4, mid v' a i = mid v a i := by
    intro a ha i hi; unfold mid; rw [hs a ha i hi]
  have hctr : ∀ a, S a → ctr v' a = ctr v a := by intro a ha; unfold ctr; rw [hs a ha 0 (by omega)]
  refine ⟨c.le, ?_, ?_, ?_, ?_, ?_, ?_, ?_, ?_, ?_⟩
  · intro a ha i hi; rw [hs a ha i hi, hv a ha]; exact c.v0 a ha i hi
  · intro a ha i hi; rw [hs a ha i hi, hctr a ha]; exact c.v2 a ha i hi
  · intro a ha i hi; rw [hs a ha i hi, hmid a ha _ (by omega)]; exact c.v3 a ha i hi
  · intro a ha i hi; rw [hmid a ha i hi]; exact c.mid_rng a ha i hi
  · intro a ha; rw [hctr a ha]; exact c.ctr_rng a ha
  · intro a b i j ha hb hi hj
    rw [hmid a ha i hi, hmid b hb j hj, E_congr (hv a ha), E_congr (hv b hb)]
    exact c.mid_iff a b i j ha hb hi hj
  · intro a b ha hb; rw [hctr a ha, hctr b hb]; exact c.ctr_inj a b ha hb
  · intro a b i ha hb hi; rw [hmid a ha i hi, hctr b hb]; exact c.mid_ctr a b i ha hb hi
  · intro n h1 h2
    rcases c.surj n h1 h2 with ⟨a, i, ha, hi, h⟩ | ⟨a, ha, h⟩
    · exact Or.inl ⟨a, i, ha, hi, by rw [hmid a ha i hi]; exact h⟩
    · exact Or.inr ⟨a, ha, by rw [hctr a ha]; exact h⟩

theorem edgesF_congr {v v' : Addr → Nat → Nat} {L : List Addr} (hv : ∀ a ∈ L, v' a = v a) :
    edgesF v' L = edgesF v L := by
  ext x
  rw [mem_edgesF, mem_edgesF]
  constructor
  · rintro ⟨b, hb, j, hj, rfl⟩; exact ⟨b, hb, j, hj, E_congr (hv b hb) j⟩
  · rintro ⟨b, hb, j, hj, rfl⟩; exact ⟨b, hb, j, hj, (E_congr (hv b hb) j).symm⟩

/-- Facts about one level that is completely refined. -/
structure LevelOK (vert : Addr → Nat → Nat) (adj : Addr → Nat → Option Addr) (P j : Nat) (N N' : Nat) : Prop where
  conf : Conf vert (· ∈ leaves P j) N
  adj : AdjOK vert adj (· ∈ leaves P j)
  refd : Refd vert (· ∈ leaves P j) N N'
  count : N' = N + (edgesF vert (leaves P j)).card + (leaves P j).length

theorem LevelOK.congr {v v' : Addr → Nat → Nat} {w w' : Addr → Nat → Option Addr} {P j N N' : Nat}
    (h : LevelOK v w P j N N') (hv : ∀ a : Addr, a.2.length ≤ j + 1 → v' a = v a)
    (hw : ∀ a : Addr, a.2.length ≤ j → w' a = w a) : LevelOK v' w' P j N N' := by
  have hlen : ∀ a ∈ leaves P j, a.2.length = j := fun a ha => (mem_leaves.1 ha).2.1
  have hv' : ∀ a ∈ leaves P j, v' a = v a := fun a ha => hv a (by rw [hlen a ha]; omega)
  refine ⟨h.conf.congr hv' (fun _ h => h), h.adj.congr hv' (fun a ha => hw a (by rw [hlen a ha])) (fun _ => Iff.rfl),
    h.refd.congr hv' ?_, by rw [edgesF_congr hv']; exact h.count⟩
  intro a ha i _
  apply hv
  simp only [son, List.length_cons, hlen a ha]
  omega

theorem refineLeaf_vert_other (u : Tree K) (a b : Addr) (hb : b ∉ sons a) : (refineLeaf u a).vert b = u.vert b := by
  by_cases h : u.refined a
  · unfold refineLeaf; rw [if_pos h]
  · obtain ⟨_, _, _, _, _, _, _, _, _, _, _, e12, _⟩ := refineLeaf_eqs u a (by simpa using h)
    rw [e12]
    exact setSons_other _ _ _ _ hb

/-- The invariant of the whole refinement. -/
structure TopoState' (P k : Nat) (pre : List Addr) (N : Nat → Nat) (u : Tree K) : Prop where
  lower : ∀ j < k, LevelOK u.vert u.adj P j (N j) (N (j + 1))
  pass : Pass u (· ∈ leaves P k) k (N k) pre
  len : ∀ b, u.refined b = true → b.2.length ≤ k

theorem topo_levels (t : Tree K) (P : Nat) (href : ∀ b, t.refined b = false) (N0 : Nat)
    (h0 : Pass t (· ∈ leaves P 0) 0 N0 []) (k : Nat) :
    ∃ N : Nat → Nat, N 0 = N0 ∧ TopoState' P k [] N (levelTree t P k) := by
  refine level_induction (K := K) (fun k pre _ u => ∃ N : Nat → Nat, N 0 = N0 ∧ TopoState' P k pre N u) t P
    ⟨fun _ => N0, rfl, by intro j hj; omega, h0, by intro b hb; rw [href] at hb; cases hb⟩ ?_ ?_ href k
  · rintro k pre a post u hL ⟨N, hN0, hI⟩ hr
    have ha : a ∈ leaves P k := by rw [hL]; simp
    have hnp : a ∉ pre := by
      have := leaves_nodup P k
      rw [hL, List.nodup_append] at this
      exact fun h => this.2.2 a h a (by simp) rfl
    have halen : a.2.length = k := (mem_leaves.1 ha).2.1
    refine ⟨N, hN0, ?_, pass_step hI.pass ha hnp, ?_⟩
    · intro j hj
      refine (hI.lower j hj).congr ?_ ?_
      · intro b hb
        apply refineLeaf_vert_other
        rw [mem_sons]
        rintro ⟨i, _, rfl⟩
        simp only [son, List.length_cons] at hb
        omega
      · intro b hb
        exact (new_adj hI.pass ha hnp).2 b (by omega)
    · intro b hb
      rw [refineLeaf_refined] at hb
      by_cases h : b = a
      · rw [h, halen]
      · rw [if_neg h] at hb; exact hI.len b hb
  · rintro k u ⟨N, hN0, hI⟩
    have hp := hI.pass
    have hS : ∀ b, b ∈ leaves P (k + 1) ↔ SonsOf (· ∈ leaves P k) b := by
      intro b; rw [mem_leaves_succ]; rfl
    have hne : ∀ j ≤ k, j ≠ k + 1 := by intro j hj; omega
    refine ⟨fun j => if j = k + 1 then u.nPoints else N j, by simp [hN0], ?_, ?_, ?_⟩
    · intro j hj
      rw [if_neg (by omega : j ≠ k + 1)]
      by_cases hjk : j = k
      · subst hjk
        rw [if_pos rfl]
        exact ⟨hp.conf, hp.adj, hp.refd, hp.count⟩
      · rw [if_neg (by omega : j + 1 ≠ k + 1)]
        exact hI.lower j (by omega)
    · rw [if_pos rfl]
      refine ⟨fun b hb => (mem_leaves.1 hb).2.1, by simp, ?_, ?_, ?_, ?_, ?_, ?_⟩
      · exact (conf_sons hp.conf hp.refd).congr (fun _ _ => rfl) (fun b hb => (hS b).1 hb)
      · exact hp.sadj.congr (fun _ _ => rfl) (fun _ _ => rfl) hS
      · refine ⟨le_rfl, ?_, ?_, ?_, ?_, ?_, ?_, ?_, ?_, ?_⟩
        · intro b hb; simp at hb
        · intro b hb; simp at hb
        · intro b hb; simp at hb
        · intro b hb; simp at hb
        · intro b hb; simp at hb
        · intro b c i j hb; simp at hb
        · intro b c hb; simp at hb
        · intro b c i hb; simp at hb
        · intro n h1 h2; omega
      · rintro b ⟨c, hc, _⟩; simp at hc
      · intro b hb
        constructor
        · intro h
          have h1 := hI.len b h
          have h2 := (mem_leaves.1 hb).2.1
          omega
        · intro h; simp at h
      · simp [edgesF]
    · intro b hb
      have := hI.len b hb
      omega

/-! ## the patch level -/

section
variable {V : Type}

/-- corner numbers after the slots in `L` -/
structure CornerInv (corner : Nat → Nat → V) (L : List (Nat × Nat)) (st : CornerState V) : Prop where
  nodup : st.uniquePts.Nodup
  len : st.nPoints = st.uniquePts.length
  num : ∀ i j, (i, j) ∈ L → st.uniquePts[st.vert (i, []) j]? = some (corner i j)
  used : ∀ n < st.nPoints, ∃ i j, (i, j) ∈ L ∧ st.vert (i, []) j = n

theorem corner_step (near : V → V → Bool) (corner : Nat → Nat → V) (L : List (Nat × Nat)) (st : CornerState V)
    (i j : Nat) (hn : (i, j) ∉ L)
    (hnear : ∀ i' j', (i', j') ∈ L → (near (corner i' j') (corner i j) = true ↔ corner i' j' = corner i j))
    (h : CornerInv corner L st) : CornerInv corner (L ++ [(i, j)]) (cornerStep near corner i st j) := by
  have hlt : ∀ i' j', (i', j') ∈ L → st.vert (i', []) j' < st.uniquePts.length := by
    intro i' j' hm
    have := h.num i' j' hm
    exact (List.getElem?_eq_some_iff.1 this).1
  have hpts : ∀ x ∈ st.uniquePts, ∃ i' j', (i', j') ∈ L ∧ x = corner i' j' := by
    intro x hx
    obtain ⟨n, hn, e⟩ := List.getElem_of_mem hx
    obtain ⟨i', j', hm, hv⟩ := h.used n (by rw [h.len]; exact hn)
    refine ⟨i', j', hm, ?_⟩
    have := h.num i' j' hm
    rw [hv, List.getElem?_eq_getElem hn, e] at this
    injection this
  have hv : ∀ i' j' m, (i', j') ∈ L →
      (if ((i', []) : Addr) = (i, []) ∧ j' = j then m else st.vert (i', []) j') = st.vert (i', []) j' := by
    intro i' j' m hm
    rw [if_neg]
    rintro ⟨e1, e2⟩
    injection e1 with e1 _
    subst e1; subst e2
    exact hn hm
  unfold cornerStep
  dsimp only
  by_cases hidx : st.uniquePts.findIdx (fun u => near u (corner i j)) ≠ st.uniquePts.length
  · rw [if_pos hidx]
    have hl : st.uniquePts.findIdx (fun u => near u (corner i j)) < st.uniquePts.length :=
      lt_of_le_of_ne List.findIdx_le_length hidx
    have hg := List.findIdx_getElem (w := hl)
    have hval : st.uniquePts[st.uniquePts.findIdx (fun u => near u (corner i j))] = corner i j := by
      obtain ⟨i', j', hm, e⟩ := hpts _ (List.getElem_mem hl)
      rw [e] at hg ⊢
      exact (hnear i' j' hm).1 hg
    refine ⟨h.nodup, h.len, ?_, ?_⟩
    · intro i' j' hm
      rw [List.mem_append, List.mem_singleton] at hm
      dsimp only
      rcases hm with hm | hm
      · rw [hv i' j' _ hm]; exact h.num i' j' hm
      · injection hm with e1 e2
        subst e1; subst e2
        rw [if_pos ⟨rfl, rfl⟩, List.getElem?_eq_getElem hl, hval]
    · intro n hnn
      obtain ⟨i', j', hm, e⟩ := h.used n hnn
      refine ⟨i', j', by simp [hm], ?_⟩
      dsimp only
      rw [hv i' j' _ hm, e]
  · rw [if_neg hidx]
    push Not at hidx
    have hnotin : corner i j ∉ st.uniquePts := by
      intro hx
      have hlt' : st.uniquePts.findIdx (fun u => near u (corner i j)) < st.uniquePts.length := by
        rw [List.findIdx_lt_length]
        refine ⟨corner i j, hx, ?_⟩
        obtain ⟨i', j', hm, e⟩ := hpts _ hx
        have := (hnear i' j' hm).2 e.symm
        rw [← e] at this
        exact this
      omega
    refine ⟨?_, ?_, ?_, ?_⟩
    · rw [List.nodup_append]
      refine ⟨h.nodup, by simp, ?_⟩
      intro x hx y hy hxy
      rw [List.mem_singleton] at hy
      rw [hxy, hy] at hx
      exact hnotin hx
    · simp [h.len]
    · intro i' j' hm
      rw [List.mem_append, List.mem_singleton] at hm
      dsimp only
      rcases hm with hm | hm
      · rw [hv i' j' _ hm, List.getElem?_append_left (hlt i' j' hm)]; exact h.num i' j' hm
      · injection hm with e1 e2
        subst e1; subst e2
        rw [if_pos ⟨rfl, rfl⟩, h.len]
        simp
    · intro n hnn
      dsimp only at hnn ⊢
      rcases Nat.lt_or_ge n st.nPoints with h1 | h1
      · obtain ⟨i', j', hm, e⟩ := h.used n h1
        exact ⟨i', j', by simp [hm], by rw [hv i' j' _ hm, e]⟩
      · refine ⟨i, j, by simp, ?_⟩
        rw [if_pos ⟨rfl, rfl⟩]
        omega

/-- corner slots in processing order -/
def cslots (P : Nat) : List (Nat × Nat) := (List.range P).flatMap fun i => (List.range 4).map fun j => (i, j)

theorem mem_cslots {P i j : Nat} : (i, j) ∈ cslots P ↔ i < P ∧ j < 4 := by
  unfold cslots
  rw [List.mem_flatMap]
  constructor
  · rintro ⟨f, hf, h⟩
    obtain ⟨k, hk, h⟩ := List.mem_map.1 h
    injection h with h1 h2
    subst h1; subst h2
    exact ⟨List.mem_range.1 hf, List.mem_range.1 hk⟩
  · rintro ⟨he, hj⟩
    exact ⟨i, List.mem_range.2 he, List.mem_map.2 ⟨j, List.mem_range.2 hj, rfl⟩⟩

theorem init_corners (near : V → V → Bool) (corner : Nat → Nat → V) (P : Nat)
    (hnear : ∀ i j i' j', i < P → i' < P → j < 4 → j' < 4 →
      (near (corner i' j') (corner i j) = true ↔ corner i' j' = corner i j)) :
    CornerInv corner (cslots P) (initCorners near corner P) := by
  unfold initCorners
  have key : ∀ n, n ≤ P → CornerInv corner (cslots n)
      (forLoop n (fun st i => forLoop 4 (cornerStep near corner i) st) (⟨[], fun _ _ => 0, 0⟩ : CornerState V)) := by
    intro n
    induction n with
    | zero =>
      intro _
      refine ⟨by simp [forLoop], rfl, ?_, ?_⟩
      · intro i j hm; rw [mem_cslots] at hm; omega
      · intro m hm; exact absurd hm (by simp [forLoop])
    | succ n ih =>
      intro hn
      rw [forLoop_succ]
      have h := ih (by omega)
      generalize forLoop n (fun st i => forLoop 4 (cornerStep near corner i) st)
        (⟨[], fun _ _ => 0, 0⟩ : CornerState V) = st at h
      have inner : ∀ m, m ≤ 4 → CornerInv corner (cslots n ++ (List.range m).map fun j => (n, j))
          (forLoop m (cornerStep near corner n) st) := by
        intro m
        induction m with
        | zero => intro _; simpa [forLoop] using h
        | succ m ihm =>
          intro hm
          rw [forLoop_succ, List.range_succ, List.map_append, List.map_singleton, ← List.append_assoc]
          refine corner_step near corner _ _ n m ?_ ?_ (ihm (by omega))
          · rw [List.mem_append, mem_cslots]
            simp
          · intro i' j' hmem
            have hb : i' < P ∧ j' < 4 := by
              rw [List.mem_append, mem_cslots, List.mem_map] at hmem
              rcases hmem with hmem | ⟨x, hx, e⟩
              · omega
              · injection e with e1 e2
                rw [List.mem_range] at hx
                omega
            exact hnear n m i' j' (by omega) hb.1 (by omega) hb.2
      have := inner 4 le_rfl
      have e : cslots (n + 1) = cslots n ++ (List.range 4).map fun j => (n, j) := by
        unfold cslots
        rw [List.range_succ (n := n), List.flatMap_append, List.flatMap_singleton]
      rw [e]
      exact this
  exact key P le_rfl

/-- vertex numbers of the patches = corners -/
theorem patch_vert (near : V → V → Bool) (corner : Nat → Nat → V) (P : Nat)
    (hnear : ∀ i j i' j', i < P → i' < P → j < 4 → j' < 4 →
      (near (corner i' j') (corner i j) = true ↔ corner i' j' = corner i j)) :
    (∀ i j, i < P → j < 4 → (initCorners near corner P).vert (i, []) j < (initCorners near corner P).nPoints) ∧
    (∀ i j i' j', i < P → i' < P → j < 4 → j' < 4 → ((initCorners near corner P).vert (i, []) j =
      (initCorners near corner P).vert (i', []) j' ↔ corner i j = corner i' j')) ∧
    (∀ n < (initCorners near corner P).nPoints, ∃ i j, i < P ∧ j < 4 ∧
      (initCorners near corner P).vert (i, []) j = n) := by
  have h := init_corners near corner P hnear
  have hlt : ∀ i j, i < P → j < 4 → (initCorners near corner P).vert (i, []) j <
      (initCorners near corner P).uniquePts.length := by
    intro i j hi hj
    exact (List.getElem?_eq_some_iff.1 (h.num i j (mem_cslots.2 ⟨hi, hj⟩))).1
  refine ⟨fun i j hi hj => by rw [h.len]; exact hlt i j hi hj, ?_, ?_⟩
  · intro i j i' j' hi hi' hj hj'
    have e1 := h.num i j (mem_cslots.2 ⟨hi, hj⟩)
    have e2 := h.num i' j' (mem_cslots.2 ⟨hi', hj'⟩)
    constructor
    · intro hh
      rw [hh, e2] at e1
      injection e1 with e1
      exact e1.symm
    · intro hh
      rw [← hh] at e2
      rw [List.getElem?_eq_getElem (hlt i j hi hj), Option.some.injEq] at e1
      rw [List.getElem?_eq_getElem (hlt i' j' hi' hj'), Option.some.injEq] at e2
      exact (h.nodup.getElem_inj_iff).1 (e1.trans e2.symm)
  · intro n hn
    obtain ⟨i, j, hm, e⟩ := h.used n hn
    rw [mem_cslots] at hm
    exact ⟨i, j, hm.1, hm.2, e⟩

end

end Mesh
end Bembel
