import Verif.Lemmas.GlueEdges
import Verif.Props.MeshTopo
/-!
# Lemmas on gluing along the edges of a conforming patch collection
-/

namespace Bembel
namespace Glue

open Basis Mesh Relation

variable {V : Type}

/-- `E` is the list of edges of the patch collection, ordered by the first patch. -/
structure EdgeList (corner : Nat → Nat → V) (P : Nat) (E : List Edge) : Prop where
  nodup : E.Nodup
  sorted : E.Pairwise fun e f => e.1 ≤ f.1
  mem : ∀ e, e ∈ E ↔
      (∃ p q i k : Nat, p < q ∧ q < P ∧ i < 4 ∧ k < 4 ∧ patchEdge corner p i = patchEdge corner q k ∧
        e = ((p : Int), (q : Int), (i : Int), (k : Int))) ∨
      (∃ p i : Nat, p < P ∧ i < 4 ∧ (∀ q < P, q ≠ p → ∀ k < 4, patchEdge corner q k ≠ patchEdge corner p i) ∧
        e = ((p : Int), -1, (i : Int), -1))

theorem topo_sorted {K : Type} [Field K] (t : Mesh.Tree K) (P : Nat) (hnP : t.nPatches = P)
    (hid : ∀ p < P, t.id (p, []) = p) : (patchTopologyInfo t).Pairwise fun e f => e.1 ≤ f.1 := by
  unfold patchTopologyInfo
  rw [hnP, List.pairwise_flatMap]
  have hmem : ∀ p < P, ∀ e ∈ ((List.range 4).flatMap fun j =>
      match t.adj (p, []) j with
      | some b =>
        if t.id (p, []) < t.id b then
          [((t.id (p, []) : Int), (t.id b : Int), (j : Int), (partnerEdge t b (t.id (p, [])) : Int))]
        else []
      | none => [((t.id (p, []) : Int), -1, (j : Int), -1)]), e.1 = (p : Int) := by
    intro p hp e he
    obtain ⟨j, _, he⟩ := List.mem_flatMap.1 he
    cases hb : t.adj (p, []) j with
    | none =>
      rw [hb] at he
      rw [List.mem_singleton.1 he, hid p hp]
    | some b =>
      rw [hb] at he
      simp only at he
      split at he
      · rw [List.mem_singleton.1 he, hid p hp]
      · simp at he
  constructor
  · intro p hp
    rw [List.pairwise_iff_forall_sublist]
    intro a b hab
    have ha := hmem p (List.mem_range.1 hp) a (hab.subset (by simp))
    have hb := hmem p (List.mem_range.1 hp) b (hab.subset (by simp))
    omega
  · refine (List.pairwise_lt_range (n := P)).imp_of_mem ?_
    intro p q hp hq hpq x hx y hy
    have ha := hmem p (List.mem_range.1 hp) x hx
    have hb := hmem q (List.mem_range.1 hq) y hy
    omega

theorem edgeList_topo {K : Type} [Field K] [CharZero K] (near : V → V → Bool) (corner : Nat → Nat → V) (P M : Nat) (hP : 0 < P)
    (hc : ConformingPatches near corner P) :
    ∃ t : Mesh.Tree K, initElementTree near corner P M = some t ∧ EdgeList corner P (patchTopologyInfo t) := by
  obtain ⟨t, h1, h2, h3⟩ := Bembel.Props.C28_interfaces (K := K) near corner P M hP hc
  obtain ⟨t', g1, g2, _, _, g5, _⟩ := Bembel.Props.tree_facts (K := K) near corner P M hP
  obtain rfl : t' = t := Option.some.inj (g1.symm.trans h1)
  refine ⟨t', h1, h2, topo_sorted t' P g5 ?_, h3⟩
  intro p hp
  exact (g2 0 (by omega) (p, []) (Bembel.Props.mem_leaves_zero.2 ⟨p, hp, rfl⟩)).1

/-! ## continuous spaces -/

theorem dofIndex_lt_of_patch {n p q x y x' y' : Nat} (hx : x < n) (hy : y < n) (h : p < q) :
    dofIndex n p x y < dofIndex n q x' y' := by
  unfold dofIndex
  have h1 : y * n + x < n * n := by nlinarith
  have h2 : (p + 1) * (n * n) ≤ q * (n * n) := Nat.mul_le_mul_right _ h
  nlinarith

theorem edgePos_lt {n i s : Nat} (hn : 0 < n) (hi : i < 4) (hs : s < n) : edgeX n i s < n ∧ edgeY n i s < n :=
  ⟨edgeX_lt (dy := n) hi hn (by rw [edgeLength_self]; exact hs), edgeY_lt (dx := n) hi hn (by rw [edgeLength_self]; exact hs)⟩

theorem edgeDof_lt {n P p i s : Nat} (hn : 0 < n) (hi : i < 4) (hs : s < n) (hp : p < P) :
    edgeDof n p i s < P * (n * n) := by
  obtain ⟨hx, hy⟩ := edgePos_lt hn hi hs
  unfold edgeDof
  have := dofIndex_lt_of_patch (x' := 0) (y' := 0) hx hy hp
  unfold dofIndex at this ⊢
  omega

theorem edgePairs_interior {n p q i k : Nat} (hn : 0 < n) (hi : i < 4) (hk : k < 4) (hpq : p < q) :
    edgePairsCont n ((p : Int), (q : Int), (i : Int), (k : Int)) =
      some ((List.range n).map fun a => (edgeDof n p i (ccw i n a), edgeDof n q k (n - 1 - ccw i n a))) := by
  have hf : ∀ j r : Nat, j < 4 → getEdgeDofIndices (j : Int) n n ((r : Int) * ((n * n : Nat) : Int)) =
      some ((List.range n).map fun a => ((edgeDof n r j (ccw j n a) : Nat) : Int)) := by
    intro j r hj
    rw [getEdge_eq j n n _ hj hn hn (by simp [edgeLength_self]), edgeLength_self]
    congr 1
    apply List.map_congr_left
    intro a _
    unfold edgeDof dofIndex
    push_cast
    ring
  unfold edgePairsCont
  simp only
  rw [hf i p hi, hf k q hk]
  simp only [Option.bind_eq_bind, Option.bind_some]
  rw [if_pos (by constructor <;> omega)]
  have hlt : ∀ a < n, ∀ b, edgeDof n p i a < edgeDof n q k b := fun a ha b =>
    dofIndex_lt_of_patch (edgePos_lt hn hi ha).1 (edgePos_lt hn hi ha).2 hpq
  rw [zipEdge_eq n (p : Int) (q : Int) hi hk (edgeDof n p i) (edgeDof n q k) (fun a ha b _ => (hlt a ha b).ne)]
  congr 1
  apply List.map_congr_left
  intro a ha
  have := hlt (ccw i n a) (ccw_lt (List.mem_range.1 ha)) (n - 1 - ccw i n a)
  rw [min_eq_left this.le, max_eq_right this.le]

theorem edgePairs_boundary {n p i : Nat} (hn : 0 < n) (hi : i < 4) :
    edgePairsCont n ((p : Int), -1, (i : Int), -1) = some [] := by
  unfold edgePairsCont
  simp only
  rw [getEdge_eq i n n _ hi hn hn (by simp [edgeLength_self])]
  simp [getEdgeDofIndices]

theorem foldlM_flatMap {α β σ : Type} (f : α → Option (List β)) (g : α → List β) (step : σ → β → Option σ)
    (l : List α) (h : ∀ a ∈ l, f a = some (g a)) (s : σ) :
    l.foldlM (fun s a => do let ps ← f a; ps.foldlM step s) s = (l.flatMap g).foldlM step s := by
  induction l generalizing s with
  | nil => rfl
  | cons a l ih =>
    rw [List.foldlM_cons, List.flatMap_cons, List.foldlM_append, h a (List.mem_cons_self ..)]
    simp only [Option.bind_eq_bind, Option.bind_some]
    congr 1
    funext s'
    exact ih (fun b hb => h b (List.mem_cons_of_mem _ hb)) s'

/-- all identified pairs in the order of processing -/
def allPairs (n : Nat) (E : List Edge) : List (Nat × Nat) := E.flatMap fun e => (edgePairsCont n e).getD []

theorem edgePairs_some {corner : Nat → Nat → V} {P n : Nat} {E : List Edge} (hn : 0 < n) (he : EdgeList corner P E) :
    ∀ e ∈ E, edgePairsCont n e = some ((edgePairsCont n e).getD []) := by
  intro e h
  rcases (he.mem e).1 h with ⟨p, q, i, k, h1, h2, h3, h4, h5, rfl⟩ | ⟨p, i, h1, h2, h3, rfl⟩
  · rw [edgePairs_interior hn h3 h4 h1]; rfl
  · rw [edgePairs_boundary hn h2]; rfl

theorem identify_eq {corner : Nat → Nat → V} {P n : Nat} {E : List Edge} (hn : 0 < n) (he : EdgeList corner P E)
    (pre : Nat) : identifyCont n pre E = (allPairs n E).foldlM (identStep pre) ⟨[], fun _ => none⟩ := by
  unfold identifyCont allPairs
  exact foldlM_flatMap _ _ _ _ (edgePairs_some hn he) _

theorem mem_edgePairs {n p q i k : Nat} (hn : 0 < n) (hi : i < 4) (hk : k < 4) (hpq : p < q) {pr : Nat × Nat} :
    pr ∈ (edgePairsCont n ((p : Int), (q : Int), (i : Int), (k : Int))).getD [] ↔
      ∃ s < n, pr = (edgeDof n p i s, edgeDof n q k (n - 1 - s)) := by
  rw [edgePairs_interior hn hi hk hpq]
  simp only [Option.getD_some, List.mem_map, List.mem_range]
  constructor
  · rintro ⟨a, ha, rfl⟩
    exact ⟨_, ccw_lt ha, rfl⟩
  · rintro ⟨s, hs, rfl⟩
    exact ⟨ccw i n s, ccw_lt hs, by rw [ccw_ccw hs]⟩

theorem mem_allPairs {corner : Nat → Nat → V} {P n : Nat} {E : List Edge} (hn : 0 < n) (he : EdgeList corner P E)
    {pr : Nat × Nat} : pr ∈ allPairs n E ↔ ∃ p q i k s, p < q ∧ q < P ∧ i < 4 ∧ k < 4 ∧
      patchEdge corner p i = patchEdge corner q k ∧ s < n ∧ pr = (edgeDof n p i s, edgeDof n q k (n - 1 - s)) := by
  unfold allPairs
  rw [List.mem_flatMap]
  constructor
  · rintro ⟨e, h, h'⟩
    rcases (he.mem e).1 h with ⟨p, q, i, k, h1, h2, h3, h4, h5, rfl⟩ | ⟨p, i, h1, h2, h3, rfl⟩
    · obtain ⟨s, hs, rfl⟩ := (mem_edgePairs hn h3 h4 h1).1 h'
      exact ⟨p, q, i, k, s, h1, h2, h3, h4, h5, hs, rfl⟩
    · rw [edgePairs_boundary hn h2] at h'
      simp at h'
  · rintro ⟨p, q, i, k, s, h1, h2, h3, h4, h5, hs, rfl⟩
    exact ⟨_, (he.mem _).2 (Or.inl ⟨p, q, i, k, h1, h2, h3, h4, h5, rfl⟩),
      (mem_edgePairs hn h3 h4 h1).2 ⟨s, hs, rfl⟩⟩

theorem identified_iff {corner : Nat → Nat → V} {P n : Nat} {E : List Edge} (hn : 0 < n) (he : EdgeList corner P E)
    {d e : Nat} : Identified corner P n d e ↔ (d, e) ∈ allPairs n E ∨ (e, d) ∈ allPairs n E := by
  constructor
  · rintro ⟨p, q, i, k, s, hp, hq, hpq, hi, hk, hE, hs, rfl, rfl⟩
    rcases Nat.lt_or_gt_of_ne hpq with h | h
    · exact Or.inl ((mem_allPairs hn he).2 ⟨p, q, i, k, s, h, hq, hi, hk, hE, hs, rfl⟩)
    · refine Or.inr ((mem_allPairs hn he).2 ⟨q, p, k, i, n - 1 - s, h, hp, hk, hi, hE.symm, by omega, ?_⟩)
      congr 2
      omega
  · rintro (h | h)
    · obtain ⟨p, q, i, k, s, h1, h2, h3, h4, h5, hs, h6⟩ := (mem_allPairs hn he).1 h
      simp only [Prod.mk.injEq] at h6
      exact ⟨p, q, i, k, s, by omega, h2, by omega, h3, h4, h5, hs, h6.1, h6.2⟩
    · obtain ⟨p, q, i, k, s, h1, h2, h3, h4, h5, hs, h6⟩ := (mem_allPairs hn he).1 h
      simp only [Prod.mk.injEq] at h6
      refine ⟨q, p, k, i, n - 1 - s, h2, by omega, by omega, h4, h3, h5.symm, by omega, h6.2, ?_⟩
      rw [h6.1]
      congr 1
      omega

theorem chain_iff {corner : Nat → Nat → V} {P n : Nat} {E : List Edge} (hn : 0 < n) (he : EdgeList corner P E)
    {d e : Nat} : Chain (allPairs n E) d e ↔ Linked corner P n d e := by
  constructor
  · exact EqvGen.mono (fun a b h => (identified_iff hn he).2 (Or.inl h)) _ _
  · intro h
    induction h with
    | rel a b h =>
      rcases (identified_iff hn he).1 h with h | h
      · exact EqvGen.rel _ _ h
      · exact EqvGen.symm _ _ (EqvGen.rel _ _ h)
    | refl => exact EqvGen.refl _
    | symm _ _ _ ih => exact EqvGen.symm _ _ ih
    | trans _ _ _ _ _ ih1 ih2 => exact EqvGen.trans _ _ _ ih1 ih2

theorem allPairs_sorted {corner : Nat → Nat → V} {P n : Nat} {E : List Edge} (hn : 0 < n) (he : EdgeList corner P E) :
    (allPairs n E).Pairwise fun a b => a.1 / (n * n) ≤ b.1 / (n * n) := by
  have hm : ∀ e ∈ E, ∀ pr ∈ (edgePairsCont n e).getD [], ((pr.1 / (n * n) : Nat) : Int) = e.1 := by
    intro e h pr h'
    rcases (he.mem e).1 h with ⟨p, q, i, k, h1, h2, h3, h4, h5, rfl⟩ | ⟨p, i, h1, h2, h3, rfl⟩
    · obtain ⟨s, hs, rfl⟩ := (mem_edgePairs hn h3 h4 h1).1 h'
      simp only
      unfold edgeDof
      rw [dofIndex_div (edgePos_lt hn h3 hs).1 (edgePos_lt hn h3 hs).2]
    · rw [edgePairs_boundary hn h2] at h'
      simp at h'
  unfold allPairs
  rw [List.pairwise_flatMap]
  constructor
  · intro e h
    rw [List.pairwise_iff_forall_sublist]
    intro a b hab
    have ha := hm e h a (hab.subset (by simp))
    have hb := hm e h b (hab.subset (by simp))
    omega
  · refine he.sorted.imp_of_mem ?_
    intro e f h h' hef x hx y hy
    have ha := hm e h x hx
    have hb := hm f h' y hy
    omega

/-- The identification loop on a conforming, oriented patch collection. -/
theorem identify_facts {corner : Nat → Nat → V} {P n : Nat} {E : List Edge} (hn : 2 ≤ n) (he : EdgeList corner P E)
    (hd : ∀ p < P, ∀ i < 4, ∀ j < 4, corner p i = corner p j → i = j) (ho : OrientedPatches corner P) :
    ∃ st, identifyCont n (P * (n * n)) E = some st ∧ UInv (fun d => d / (n * n)) (allPairs n E) [] st := by
  rw [identify_eq (by omega) he]
  apply ufold
  · intro d e h hp
    exact linked_inj corner hn ho hd ((chain_iff (by omega) he).1 h) hp
  · intro q hq
    obtain ⟨p, r, i, k, s, h1, h2, h3, h4, h5, hs, rfl⟩ := (mem_allPairs (by omega) he).1 hq
    exact ⟨edgeDof_lt (by omega) h3 hs (by omega), edgeDof_lt (by omega) h4 (by omega) h2⟩
  · intro q hq
    obtain ⟨p, r, i, k, s, h1, h2, h3, h4, h5, hs, rfl⟩ := (mem_allPairs (by omega) he).1 hq
    have a := edgePos_lt (n := n) (by omega) h3 hs
    have b := edgePos_lt (n := n) (s := n - 1 - s) (by omega) h4 (by omega)
    simp only [edgeDof]
    rw [dofIndex_div a.1 a.2, dofIndex_div b.1 b.2]
    exact h1
  · exact allPairs_sorted (by omega) he

theorem dset_getElem {st : Store} {k : Nat} (h : k < st.out.length) : dset st k = st.out[k].dofs := by
  unfold dset
  rw [List.getElem?_eq_getElem h]; rfl

/-- Consequences of the invariant for the list of sets. -/
theorem sets_facts {corner : Nat → Nat → V} {P n : Nat} {E : List Edge} (hn : 2 ≤ n) (he : EdgeList corner P E)
    {st : Store} (I : UInv (fun d => d / (n * n)) (allPairs n E) [] st) :
    st.out.Pairwise (fun a b => ∀ x ∈ a.dofs, x ∉ b.dofs) ∧
    (∀ s ∈ st.out, s.dofs.Nodup ∧ (∀ x ∈ s.dofs, x < P * (n * n) ∧ hd s ≤ x) ∧
      (s.dofs ≠ [] → s.coef = 1 ∧ 2 ≤ s.dofs.length)) ∧
    ∀ d e, d ≠ e → ((∃ s ∈ st.out, d ∈ s.dofs ∧ e ∈ s.dofs) ↔ Linked corner P n d e) := by
  have hset : ∀ d k, st.stored d = some k → ∃ s ∈ st.out, s.dofs = dset st k ∧ d ∈ s.dofs := by
    intro d k h
    have h1 := (I.stored d k).1 h
    obtain ⟨s, h2, h3⟩ := dset_lt h1
    exact ⟨s, List.mem_of_getElem? h2, h3, h3 ▸ h1⟩
  refine ⟨?_, ?_, ?_⟩
  · rw [List.pairwise_iff_getElem]
    intro i j hi hj hij x hx hx'
    have h1 := (I.stored x i).2 (by rw [dset_getElem hi]; exact hx)
    have h2 := (I.stored x j).2 (by rw [dset_getElem hj]; exact hx')
    rw [h1] at h2
    simp at h2
    omega
  · intro s hs
    obtain ⟨k, hk, rfl⟩ := List.getElem_of_mem hs
    have hdk := dset_getElem hk
    refine ⟨hdk ▸ I.nodup k, ?_, ?_⟩
    · intro x hx
      have hx' : x ∈ dset st k := by rw [hdk]; exact hx
      constructor
      · have h1 := (I.dom x).1 (by rw [(I.stored x k).2 hx']; simp)
        obtain ⟨q, hq, hxq⟩ := h1
        obtain ⟨p, r, i, k, s, h1, h2, h3, h4, h5, hs, rfl⟩ := (mem_allPairs (by omega) he).1 hq
        rcases hxq with rfl | rfl
        · exact edgeDof_lt (by omega) h3 hs (by omega)
        · exact edgeDof_lt (by omega) h4 (by omega) h2
      · have := I.hmin k x hx'
        rw [hdk] at this
        change x = hd _ ∨ hd _ / (n * n) < x / (n * n) at this
        rcases this with h | h
        · exact h ▸ le_rfl
        · by_contra hlt
          have := Nat.div_le_div_right (c := n * n) (show x ≤ hd st.out[k] by omega)
          omega
    · intro hne
      exact ⟨I.coef _ hs hne, by rw [← hdk]; exact I.big k (by rw [hdk]; exact hne)⟩
  · intro d e hde
    rw [← chain_iff (by omega) he]
    constructor
    · rintro ⟨s, hs, h1, h2⟩
      obtain ⟨k, hk, rfl⟩ := List.getElem_of_mem hs
      rw [← dset_getElem hk] at h1 h2
      exact I.sound d e k ((I.stored d k).2 h1) ((I.stored e k).2 h2)
    · intro h
      have heq : ∀ a b, Chain (allPairs n E) a b → st.stored a = st.stored b := by
        intro a b h
        induction h with
        | rel a b h => exact I.compl (a, b) h
        | refl => rfl
        | symm _ _ _ ih => exact ih.symm
        | trans _ _ _ _ _ ih1 ih2 => exact ih1.trans ih2
      have hstored : ∀ a b, Chain (allPairs n E) a b → a ≠ b → st.stored a ≠ none := by
        intro a b h
        have : ∀ a b, Chain (allPairs n E) a b → a = b ∨ (st.stored a ≠ none ∧ st.stored b ≠ none) := by
          intro a b h
          induction h with
          | rel a b h =>
            exact Or.inr ⟨(I.dom a).2 ⟨(a, b), h, Or.inl rfl⟩, (I.dom b).2 ⟨(a, b), h, Or.inr rfl⟩⟩
          | refl => exact Or.inl rfl
          | symm _ _ _ ih =>
            rcases ih with h | h
            · exact Or.inl h.symm
            · exact Or.inr ⟨h.2, h.1⟩
          | trans _ _ _ _ _ ih1 ih2 =>
            rcases ih1 with h | h
            · rw [h]; exact ih2
            · rcases ih2 with h' | h'
              · rw [← h']; exact Or.inr h
              · exact Or.inr ⟨h.1, h'.2⟩
        intro hab
        rcases this a b h with h | h
        · exact absurd h hab
        · exact h.1
      have h1 := hstored d e h hde
      obtain ⟨k, hk⟩ := Option.ne_none_iff_exists'.1 h1
      obtain ⟨s, hs, h2, h3⟩ := hset d k hk
      refine ⟨s, hs, h3, ?_⟩
      rw [h2]
      exact (I.stored e k).1 ((heq d e h).symm.trans hk)

/-- When the clean-up loop returns exactly the non-empty sets. -/
theorem cleanup_iff (l : List Ident) : cleanup l = some (l.filter fun d => d.dofs ≠ []) ↔
    ∀ (k : Nat) (d : Ident), l[k]? = some d → d.dofs = [] → ∃ e : Ident, l[k + 1]? = some e ∧ e.dofs ≠ [] := by
  induction l using cleanup.induct with
  | case1 => simp [cleanup]
  | case2 d hd =>
    simp only [cleanup, hd, if_true]
    refine ⟨fun h => by simp at h, fun h => ?_⟩
    obtain ⟨e, h1, _⟩ := h 0 d rfl hd
    simp at h1
  | case3 d hd r rest ih =>
    rw [cleanup, if_pos hd]
    by_cases hr : r.dofs = []
    · constructor
      · intro h
        cases hc : cleanup rest with
        | none => rw [hc] at h; simp at h
        | some m =>
          rw [hc] at h
          simp only [Option.map_some, Option.some.injEq] at h
          have : r ∈ ((d :: r :: rest).filter fun d => d.dofs ≠ []) := by rw [← h]; exact List.mem_cons_self ..
          have := (List.mem_filter.1 this).2
          simp [hr] at this
      · intro h
        obtain ⟨e, h1, h2⟩ := h 0 d rfl hd
        simp at h1
        rw [← h1] at h2
        exact absurd hr h2
    · have e1 : ((d :: r :: rest).filter fun d => d.dofs ≠ []) = r :: rest.filter fun d => d.dofs ≠ [] := by
        simp [hd, hr]
      rw [e1]
      have e2 : (Option.map (fun x => r :: x) (cleanup rest) = some (r :: rest.filter fun d => d.dofs ≠ [])) ↔
          cleanup rest = some (rest.filter fun d => d.dofs ≠ []) := by
        cases cleanup rest with
        | none => simp
        | some m => simp
      rw [e2, ih]
      constructor
      · intro h k x hx hxe
        match k with
        | 0 => exact ⟨r, rfl, hr⟩
        | 1 =>
          simp at hx
          rw [← hx] at hxe
          exact absurd hxe hr
        | k + 2 =>
          obtain ⟨e, g1, g2⟩ := h k x (by simpa using hx) hxe
          exact ⟨e, by simpa using g1, g2⟩
      · intro h k x hx hxe
        obtain ⟨e, g1, g2⟩ := h (k + 2) x (by simpa using hx) hxe
        exact ⟨e, by simpa using g1, g2⟩
  | case4 d rest hd ih =>
    rw [cleanup.eq_def]
    simp only [if_neg hd]
    have e1 : ((d :: rest).filter fun d => d.dofs ≠ []) = d :: rest.filter fun d => d.dofs ≠ [] := by
      simp [hd]
    rw [e1]
    have e2 : (Option.map (fun x => d :: x) (cleanup rest) = some (d :: rest.filter fun d => d.dofs ≠ [])) ↔
        cleanup rest = some (rest.filter fun d => d.dofs ≠ []) := by
      cases cleanup rest with
      | none => simp
      | some m => simp
    rw [e2, ih]
    constructor
    · intro h k x hx hxe
      match k with
      | 0 =>
        simp at hx
        rw [← hx] at hxe
        exact absurd hxe hd
      | k + 1 =>
        obtain ⟨e, g1, g2⟩ := h k x (by simpa using hx) hxe
        exact ⟨e, by simpa using g1, g2⟩
    · intro h k x hx hxe
      obtain ⟨e, g1, g2⟩ := h (k + 1) x (by simpa using hx) hxe
      exact ⟨e, by simpa using g1, g2⟩

end Glue
end Bembel
