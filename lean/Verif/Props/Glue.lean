import Verif.Lemmas.GlueDiv
import Mathlib.Tactic.FieldSimp
import Mathlib.Tactic.LinearCombination
import Mathlib.Algebra.Order.Field.Basic
import Mathlib.Data.Rat.Cast.Order
/-!
# Property theorems C29-C33: gluing of degrees of freedom
-/

set_option linter.unusedSectionVars false

namespace Bembel.Props

open Bembel.Basis Bembel.Mesh Bembel.Glue

/-! ## C29 -/

/-- C29: the dofs listed for edge `i` of a `dx × dy` grid are exactly the dofs on that edge, shifted by `shift`, in
increasing order; there are as many as the edge is long, all in `[shift, shift + dx*dy)`.  (The code asserts that the
extent along the edge does not exceed the other extent.) -/
theorem C29_edge_dofs (i dx dy : Nat) (shift : Int) (hi : i < 4) (hx : 0 < dx) (hy : 0 < dy)
    (h : edgeLength dx dy i ≤ edgeLength dy dx i) :
    ∃ l, getEdgeDofIndices (i : Int) dx dy shift = some l ∧ l.Pairwise (· < ·) ∧ l.length = edgeLength dx dy i ∧
      (∀ d, d ∈ l ↔ ∃ x y : Nat, x < dx ∧ y < dy ∧ DofOnEdge dx dy i x y ∧ d = shift + (y : Int) * dx + x) ∧
      ∀ d ∈ l, shift ≤ d ∧ d < shift + (dx : Int) * dy := by
  have key : ∀ d, d ∈ ((List.range (edgeLength dx dy i)).map fun a =>
      ((edgeY dy i (ccw i (edgeLength dx dy i) a) * dx + edgeX dx i (ccw i (edgeLength dx dy i) a) : Nat) : Int) + shift) ↔
      ∃ x y : Nat, x < dx ∧ y < dy ∧ DofOnEdge dx dy i x y ∧ d = shift + (y : Int) * dx + x := by
    intro d
    rw [List.mem_map]
    constructor
    · rintro ⟨a, ha, rfl⟩
      have ha := ccw_lt (i := i) (List.mem_range.1 ha)
      refine ⟨_, _, edgeX_lt hi hx ha, edgeY_lt hi hy ha, ?_, ?_⟩
      · rcases four_cases hi with rfl | rfl | rfl | rfl <;> simp [DofOnEdge, edgeX, edgeY]
      · push_cast; ring
    · rintro ⟨x, y, h1, h2, h3, rfl⟩
      rcases h3 with ⟨rfl, rfl⟩ | ⟨rfl, rfl⟩ | ⟨rfl, rfl⟩ | ⟨rfl, rfl⟩
      · exact ⟨x, by simp [edgeLength, h1], by simp [edgeX, edgeY, ccw, edgeLength]; ring⟩
      · exact ⟨y, by simp [edgeLength, h2], by simp [edgeX, edgeY, ccw, edgeLength]; ring⟩
      · refine ⟨x, by simp [edgeLength, h1], ?_⟩
        have : dx - 1 - (dx - 1 - x) = x := by omega
        simp [edgeX, edgeY, ccw, edgeLength, this]; ring
      · refine ⟨y, by simp [edgeLength, h2], ?_⟩
        have : dy - 1 - (dy - 1 - y) = y := by omega
        simp [edgeX, edgeY, ccw, edgeLength, this]; ring
  refine ⟨_, getEdge_eq i dx dy shift hi hx hy h, ?_, by simp, key, ?_⟩
  · rw [List.pairwise_map]
    refine (List.pairwise_lt_range (n := edgeLength dx dy i)).imp_of_mem ?_
    intro a b ha hb hab
    have ha := List.mem_range.1 ha
    have hb := List.mem_range.1 hb
    have hm : a * dx < b * dx := Nat.mul_lt_mul_of_pos_right hab hx
    rcases four_cases hi with rfl | rfl | rfl | rfl <;> simp [edgeX, edgeY, ccw, edgeLength] at ha hb ⊢
    · exact hab
    · norm_cast
    · omega
    · have e1 : dy - 1 - (dy - 1 - a) = a := by omega
      have e2 : dy - 1 - (dy - 1 - b) = b := by omega
      have e3 : ((dy - 1 : Nat) : Int) - ((dy - 1 - a : Nat) : Int) = a := by omega
      have e4 : ((dy - 1 : Nat) : Int) - ((dy - 1 - b : Nat) : Int) = b := by omega
      first
      | (rw [e3, e4]; exact_mod_cast hm)
      | (rw [e1, e2]; exact_mod_cast hm)
  · intro d hd
    obtain ⟨x, y, h1, h2, -, rfl⟩ := (key d).1 hd
    have : y * dx + x < dx * dy := by nlinarith
    constructor
    · have : (0 : Int) ≤ (y : Int) * dx := by positivity
      omega
    · have : (y : Int) * dx + x < (dx : Int) * dy := by exact_mod_cast this
      omega

/-- Non-vacuity: right edge of a 4 × 3 grid. -/
example : getEdgeDofIndices 1 4 3 100 = some [103, 107, 111] ∧ edgeLength 4 3 1 ≤ edgeLength 3 4 1 := by
  decide +kernel

/-! ## C30 -/

/-- C30: for two patches `p < q` with common edges `i` and `k`, the pairs of identified dofs are exactly the dofs number
`s` on the first and `n - 1 - s` on the second edge, both counted counter-clockwise. -/
theorem C30_pairing (n p q i k : Nat) (hn : 0 < n) (hi : i < 4) (hk : k < 4) (hpq : p < q) :
    ∃ l, edgePairsCont n ((p : Int), (q : Int), (i : Int), (k : Int)) = some l ∧ l.length = n ∧ l.Nodup ∧
      ∀ pr, pr ∈ l ↔ ∃ s < n, pr = (edgeDof n p i s, edgeDof n q k (n - 1 - s)) := by
  refine ⟨_, edgePairs_interior hn hi hk hpq, by simp, ?_, ?_⟩
  · rw [List.nodup_map_iff_inj_on List.nodup_range]
    intro a ha b hb hab
    have ha := List.mem_range.1 ha
    have hb := List.mem_range.1 hb
    simp only [Prod.mk.injEq] at hab
    obtain ⟨hx, hy⟩ := edgePos_lt (n := n) hn hi (ccw_lt (i := i) ha)
    obtain ⟨hx', hy'⟩ := edgePos_lt (n := n) hn hi (ccw_lt (i := i) hb)
    have h1 := congrArg (fun d => d % (n * n) % n) hab.1
    have h2 := congrArg (fun d => d % (n * n) / n) hab.1
    simp only [edgeDof, dofIndex_x hx hy, dofIndex_x hx' hy', dofIndex_y hx hy, dofIndex_y hx' hy'] at h1 h2
    have : ccw i n a = ccw i n b := by
      have := ccw_lt (i := i) ha
      have := ccw_lt (i := i) hb
      rcases four_cases hi with rfl | rfl | rfl | rfl <;> simp [edgeX, edgeY] at h1 h2 <;> omega
    rw [← ccw_ccw (i := i) ha, this, ccw_ccw hb]
  · intro pr
    have := mem_edgePairs (pr := pr) hn hi hk hpq
    rwa [edgePairs_interior hn hi hk hpq] at this

/-- C30: the list of the second edge is reversed exactly if both lists run in the same sense along the
counter-clockwise boundary of their patch (edges 0, 1 run counter-clockwise, edges 2, 3 clockwise). -/
theorem C30_reverse (p q : Int) (i k : Nat) (hi : i < 4) (hk : k < 4) :
    reverseParametrized (p, q, (i : Int), (k : Int)) = true ↔ ((i = 0 ∨ i = 1) ↔ (k = 0 ∨ k = 1)) := by
  rw [reverse_iff hi hk, decide_eq_true_eq]
  omega

/-- C30: the sign is chosen such that outward flux of one patch is inward flux of the other one. -/
theorem C30_sign (p q : Int) (i k : Nat) (hi : i < 4) (hk : k < 4) :
    outwardSign i * 1 + outwardSign k * glueCoefficientDivergenceConforming (p, q, (i : Int), (k : Int)) = 0 ∧
      (glueCoefficientDivergenceConforming (p, q, (i : Int), (k : Int)) = 1 ↔ outwardSign i ≠ outwardSign k) := by
  rw [coef_eq hi hk]
  rcases four_cases hi with rfl | rfl | rfl | rfl <;> rcases four_cases hk with rfl | rfl | rfl | rfl <;>
    decide +kernel

/-- C30: the glued component is the one normal to the edge: the first component for the edges `x = 1` and `x = 0`. -/
theorem C30_component (i : Nat) (hi : i < 4) : edgeToBeGluedInFirstComp (i : Int) = true ↔ i = 1 ∨ i = 3 := by
  rw [firstComp_iff hi, decide_eq_true_eq]

section
variable {K : Type} [Field K] [LinearOrder K] [IsStrictOrderedRing K] {V : Type} (near : V → V → Bool)
  (corner : Nat → Nat → V)

theorem dofParam_edge {n p i s : Nat} (hn : 2 ≤ n) (hi : i < 4) (hs : s < n) :
    dofParam K n (edgeDof n p i s) = edgePoint i ((s : K) / ((n - 1 : Nat) : K)) := by
  obtain ⟨hx, hy⟩ := edgePos_lt (n := n) (by omega) hi hs
  unfold dofParam edgeDof
  rw [dofIndex_x hx hy, dofIndex_y hx hy]
  have h0 : ((n - 1 : Nat) : K) ≠ 0 := by
    rw [Nat.cast_ne_zero]; omega
  have h1 : ((n - 1 - s : Nat) : K) = ((n - 1 : Nat) : K) - (s : K) := Nat.cast_sub (by omega)
  rcases four_cases hi with rfl | rfl | rfl | rfl
  · simp [edgeX, edgeY, edgePoint]
  · simp [edgeX, edgeY, edgePoint, div_self h0]
  · simp only [edgeX, edgeY, edgePoint, OfNat.ofNat_ne_zero, OfNat.ofNat_ne_one, if_false, if_true, div_self h0, h1]
    rw [sub_div, div_self h0]
  · simp only [edgeX, edgeY, edgePoint, OfNat.ofNat_ne_zero, OfNat.ofNat_ne_one, if_false, h1,
      show ¬ ((3 : Nat) = 2) by omega, Nat.cast_zero, zero_div]
    rw [sub_div, div_self h0]

/-- C30: on a watertight, consistently oriented surface the dofs of a pair belong to the same point of the surface. -/
theorem C30_coincide (P n : Nat) (hn : 2 ≤ n) (ho : OrientedPatches corner P) (F : Nat → K × K → V)
    (hw : Watertight corner P F) (p q i k s : Nat) (hp : p < P) (hq : q < P) (hpq : p ≠ q) (hi : i < 4) (hk : k < 4)
    (he : patchEdge corner p i = patchEdge corner q k) (hs : s < n) :
    F p (dofParam K n (edgeDof n p i s)) = F q (dofParam K n (edgeDof n q k (n - 1 - s))) := by
  rw [dofParam_edge hn hi hs, dofParam_edge hn hk (by omega)]
  obtain ⟨o1, o2⟩ := ho p hp q hq hpq i hi k hk he
  have hpos : (0 : K) < ((n - 1 : Nat) : K) := by
    rw [Nat.cast_pos]; omega
  have h1 : ((n - 1 - s : Nat) : K) = ((n - 1 : Nat) : K) - (s : K) := Nat.cast_sub (by omega)
  rw [hw.opposite p hp q hq hpq i hi k hk o1 o2 _ (div_nonneg (Nat.cast_nonneg _) hpos.le)
    ((div_le_one hpos).2 (by rw [Nat.cast_le]; omega)), h1, sub_div, div_self hpos.ne']

end

/-! ## C31 -/

theorem glueMatrix_of_good (pre : Nat) (ids : List Ident) (g : GoodIds pre ids) :
    ∃ post trips, assembleGlueMatrix pre ids = some (post, trips) ∧
      GlueMatrix pre post trips (fun r r' => ∃ d ∈ ids, r ∈ d.dofs ∧ r' ∈ d.dofs) ∧
      (∀ t ∈ trips, (∀ d ∈ ids, t.1 ∈ d.dofs.tail → t.2.2 = d.coef) ∧
        ((∀ d ∈ ids, t.1 ∉ d.dofs.tail) → t.2.2 = 1)) ∧
      post + (ids.map fun d => d.dofs.length - 1).sum = pre := by
  obtain ⟨post, trips, ns, h1, h2, h3, h4, h5, h6, h7⟩ := assemble_eq pre ids g
  have hmemd : ∀ d ∈ ids, hd d ∈ d.dofs := fun d h => by
    have := List.mem_cons_self (a := hd d) (l := d.dofs.tail)
    rwa [← hd_cons (g.ne d h)] at this
  have hnt : ∀ d ∈ ids, ∀ e ∈ ids, hd d ∉ e.dofs.tail := fun d h e h' hh => by
    have he := disj_iff g.disj h' h (List.mem_of_mem_tail hh) (hmemd d h)
    subst he
    have := g.nodup e h
    rw [hd_cons (g.ne e h)] at this
    exact (List.nodup_cons.1 this).1 hh
  have hin : ∀ d ∈ ids, hd d ∈ ns := fun d h => (h6 _).2 ⟨g.lt d h _ (hmemd d h), fun e he => hnt d h e he⟩
  have hnn : ns.Nodup := h5.imp fun h => Nat.ne_of_lt h
  have hcol : ∀ c c' x : Nat, ns[c]? = some x → ns[c']? = some x → c = c' := by
    intro c c' x hc hc'
    obtain ⟨hl, e⟩ := List.getElem?_eq_some_iff.1 hc
    obtain ⟨hl', e'⟩ := List.getElem?_eq_some_iff.1 hc'
    exact (List.Nodup.getElem_inj_iff hnn).1 (e.trans e'.symm)
  refine ⟨post, trips, h1, ⟨?_, ?_, ?_, ?_⟩, ?_, ?_⟩
  · have hsub : List.range pre ⊆ trips.map fun t => t.1 := by
      intro r hr
      rw [List.mem_range] at hr
      rw [List.mem_map]
      by_cases hs : ∀ d ∈ ids, r ∉ d.dofs.tail
      · obtain ⟨c, hc⟩ := List.mem_iff_getElem?.1 ((h6 r).2 ⟨hr, hs⟩)
        exact ⟨(r, c, 1), (h7 _ _ _).2 ⟨r, hc, Or.inl ⟨rfl, rfl⟩⟩, rfl⟩
      · push Not at hs
        obtain ⟨d, hd1, hd2⟩ := hs
        obtain ⟨c, hc⟩ := List.mem_iff_getElem?.1 (hin d hd1)
        exact ⟨(r, c, d.coef), (h7 _ _ _).2 ⟨_, hc, Or.inr ⟨d, hd1, rfl, hd2, rfl⟩⟩, rfl⟩
    exact ((List.subperm_of_subset List.nodup_range hsub).perm_of_length_le (by simp [h2])).symm
  · rintro ⟨r, c, v⟩ ht
    obtain ⟨x, hx, _⟩ := (h7 r c v).1 ht
    have := (List.getElem?_eq_some_iff.1 hx).1
    simp only
    omega
  · intro c hc
    have hc' : c < ns.length := by omega
    exact ⟨(ns[c], c, 1), (h7 _ _ _).2 ⟨_, List.getElem?_eq_getElem hc', Or.inl ⟨rfl, rfl⟩⟩, rfl⟩
  · rintro ⟨r, c, v⟩ ht ⟨r', c', v'⟩ hu
    obtain ⟨x, hx, h⟩ := (h7 r c v).1 ht
    obtain ⟨x', hx', h'⟩ := (h7 r' c' v').1 hu
    simp only
    constructor
    · rintro rfl
      obtain rfl : x = x' := Option.some.inj (hx.symm.trans hx')
      rcases h with ⟨rfl, _⟩ | ⟨d, hd1, rfl, hd3, _⟩
      · rcases h' with ⟨rfl, _⟩ | ⟨e, he1, rfl, he3, _⟩
        · exact Or.inl rfl
        · exact Or.inr ⟨e, he1, hmemd e he1, List.mem_of_mem_tail he3⟩
      · rcases h' with ⟨rfl, _⟩ | ⟨e, he1, he2, he3, _⟩
        · exact Or.inr ⟨d, hd1, List.mem_of_mem_tail hd3, hmemd d hd1⟩
        · have : e = d := disj_iff g.disj he1 hd1 (he2 ▸ hmemd e he1) (hmemd d hd1)
          subst this
          exact Or.inr ⟨e, hd1, List.mem_of_mem_tail hd3, List.mem_of_mem_tail he3⟩
    · have rep : ∀ (r x : Nat) (v : Int), ((r = x ∧ v = 1) ∨ ∃ d ∈ ids, hd d = x ∧ r ∈ d.dofs.tail ∧ v = d.coef) →
          x ∈ ns → ∀ d ∈ ids, r ∈ d.dofs → x = hd d := by
        rintro r x v (⟨rfl, _⟩ | ⟨e, he1, rfl, he3, _⟩) hxn d hd1 hd2
        · rw [hd_cons (g.ne d hd1), List.mem_cons] at hd2
          rcases hd2 with h | h
          · exact h
          · exact absurd h (((h6 _).1 hxn).2 d hd1)
        · rw [disj_iff g.disj he1 hd1 (List.mem_of_mem_tail he3) hd2]
      rintro (rfl | ⟨d, hd1, hd2, hd3⟩)
      · by_cases hs : ∀ d ∈ ids, r ∉ d.dofs.tail
        · have e1 : r = x := by
            rcases h with h | ⟨d, a, _, b, _⟩
            · exact h.1
            · exact absurd b (hs d a)
          have e2 : r = x' := by
            rcases h' with h | ⟨d, a, _, b, _⟩
            · exact h.1
            · exact absurd b (hs d a)
          exact hcol c c' r (by rw [hx, e1]) (by rw [hx', e2])
        · push Not at hs
          obtain ⟨d, hd1, hd2⟩ := hs
          have e1 := rep r x v h (List.mem_of_getElem? hx) d hd1 (List.mem_of_mem_tail hd2)
          have e2 := rep r x' v' h' (List.mem_of_getElem? hx') d hd1 (List.mem_of_mem_tail hd2)
          exact hcol c c' (hd d) (by rw [hx, e1]) (by rw [hx', e2])
      · have e1 := rep r x v h (List.mem_of_getElem? hx) d hd1 hd2
        have e2 := rep r' x' v' h' (List.mem_of_getElem? hx') d hd1 hd3
        exact hcol c c' (hd d) (by rw [hx, e1]) (by rw [hx', e2])
  · rintro ⟨r, c, v⟩ ht
    obtain ⟨x, hx, h⟩ := (h7 r c v).1 ht
    simp only
    constructor
    · intro d hd1 hd2
      rcases h with ⟨rfl, _⟩ | ⟨e, he1, _, he3, rfl⟩
      · exact absurd hd2 (((h6 _).1 (List.mem_of_getElem? hx)).2 d hd1)
      · rw [disj_iff g.disj he1 hd1 (List.mem_of_mem_tail he3) (List.mem_of_mem_tail hd2)]
    · intro hs
      rcases h with ⟨_, rfl⟩ | ⟨e, he1, _, he3, _⟩
      · rfl
      · exact absurd he3 (hs e he1)
  · rw [← h4]
    congr 2
    apply List.map_congr_left
    intro d _
    exact List.length_tail.symm

/-- C31: for pairwise disjoint identification sets, each listed with its smallest dof first, the glue matrix has exactly
one entry per local dof and one column per class; the entry is 1 for dofs that are alone or the first of their set, and
the coefficient of the set for the others.  The number of columns is the number of dofs minus the identified ones. -/
theorem C31_glue_matrix (pre : Nat) (ids : List Ident)
    (hs : ∀ d ∈ ids, ∃ r l, d.dofs = r :: l ∧ l.Nodup ∧ r < pre ∧ ∀ x ∈ l, r < x ∧ x < pre)
    (hd : ids.Pairwise fun a b => ∀ x ∈ a.dofs, x ∉ b.dofs) :
    ∃ post trips, assembleGlueMatrix pre ids = some (post, trips) ∧
      GlueMatrix pre post trips (fun r r' => ∃ d ∈ ids, r ∈ d.dofs ∧ r' ∈ d.dofs) ∧
      (∀ t ∈ trips, (∀ d ∈ ids, t.1 ∈ d.dofs.tail → t.2.2 = d.coef) ∧
        ((∀ d ∈ ids, t.1 ∉ d.dofs.tail) → t.2.2 = 1)) ∧
      post + (ids.map fun d => d.dofs.length - 1).sum = pre := by
  apply glueMatrix_of_good
  refine ⟨?_, ?_, ?_, ?_, hd⟩
  · intro d h
    obtain ⟨r, l, h1, _⟩ := hs d h
    rw [h1]; simp
  · intro d h
    obtain ⟨r, l, h1, h2, h3, h4⟩ := hs d h
    rw [h1, List.nodup_cons]
    exact ⟨fun hr => absurd (h4 r hr).1 (by omega), h2⟩
  · intro d h x hx
    obtain ⟨r, l, h1, h2, h3, h4⟩ := hs d h
    rw [h1, List.mem_cons] at hx
    rcases hx with rfl | hx
    · exact h3
    · exact (h4 x hx).2
  · intro d h x hx
    obtain ⟨r, l, h1, h2, h3, h4⟩ := hs d h
    simp only [Glue.hd, h1, List.head?_cons, Option.getD_some]
    rw [h1, List.mem_cons] at hx
    rcases hx with rfl | hx
    · exact le_rfl
    · exact (h4 x hx).1.le

/-- Non-vacuity: seven dofs, two sets. -/
example : assembleGlueMatrix 7 [⟨[1, 5, 3], 1⟩, ⟨[0, 6], -1⟩] =
    some (4, [(0, 0, 1), (6, 0, -1), (1, 1, 1), (5, 1, 1), (3, 1, 1), (2, 2, 1), (4, 3, 1)]) := by decide +kernel

/-- The condition that the smallest dof comes first is needed: the sets are sorted in a copy only, and the assertion on
the first dof fails if it is not the smallest one. -/
theorem C31_needs_min : assembleGlueMatrix 4 [⟨[2, 1], 1⟩] = none := by decide +kernel

/-! ## C32 -/

section
variable {K : Type} [Field K] [CharZero K] {V : Type} (near : V → V → Bool) (corner : Nat → Nat → V)

theorem good_filter {P n : Nat} {E : List Edge} (hn : 2 ≤ n) (he : EdgeList corner P E)
    {st : Store} (I : UInv (fun d => d / (n * n)) (allPairs n E) [] st) :
    GoodIds (P * (n * n)) (st.out.filter fun d => d.dofs ≠ []) := by
  obtain ⟨f1, f2, f3⟩ := sets_facts hn he I
  have hm : ∀ d ∈ st.out.filter (fun d => d.dofs ≠ []), d ∈ st.out := fun d h => (List.mem_filter.1 h).1
  refine ⟨?_, fun d h => (f2 d (hm d h)).1, fun d h x hx => ((f2 d (hm d h)).2.1 x hx).1,
    fun d h x hx => ((f2 d (hm d h)).2.1 x hx).2, f1.sublist List.filter_sublist⟩
  intro d h
  simpa using (List.mem_filter.1 h).2

/-- C32: on every conforming, consistently oriented patch collection, the identification loop for continuous spaces with
`n × n` dofs per patch (`n ≥ 2`) ends with pairwise disjoint sets (some of them empty) such that two dofs are in a common
set exactly if a chain of edge identifications links them; every non-empty set has its smallest dof first. -/
theorem C32_sets (P M n : Nat) (hP : 0 < P) (hn : 2 ≤ n) (hc : ConformingPatches near corner P)
    (ho : OrientedPatches corner P) :
    ∃ (t : Mesh.Tree K) (st : Store), initElementTree near corner P M = some t ∧
      identifyCont n (P * (n * n)) (patchTopologyInfo t) = some st ∧
      st.out.Pairwise (fun a b => ∀ x ∈ a.dofs, x ∉ b.dofs) ∧
      (∀ s ∈ st.out, s.dofs = [] ∨ s.coef = 1 ∧ 2 ≤ s.dofs.length ∧
        ∃ r l, s.dofs = r :: l ∧ l.Nodup ∧ r < P * (n * n) ∧ ∀ x ∈ l, r < x ∧ x < P * (n * n)) ∧
      ∀ d e, d ≠ e → ((∃ s ∈ st.out, d ∈ s.dofs ∧ e ∈ s.dofs) ↔ Linked corner P n d e) := by
  obtain ⟨t, h1, h2⟩ := edgeList_topo (K := K) near corner P M hP hc
  obtain ⟨st, h3, I⟩ := identify_facts hn h2 hc.distinct ho
  obtain ⟨f1, f2, f3⟩ := sets_facts hn h2 I
  refine ⟨t, st, h1, h3, f1, ?_, f3⟩
  intro s hs
  obtain ⟨g1, g2, g3⟩ := f2 s hs
  cases hd : s.dofs with
  | nil => exact Or.inl rfl
  | cons r l =>
    rw [hd] at g1 g2 g3
    refine Or.inr ⟨(g3 (by simp)).1, (g3 (by simp)).2, r, l, rfl, (List.nodup_cons.1 g1).2,
      (g2 r (List.mem_cons_self ..)).1, ?_⟩
    intro x hx
    have h4 := g2 x (List.mem_cons_of_mem _ hx)
    refine ⟨?_, h4.1⟩
    have h5 : Glue.hd s = r := by simp [Glue.hd, hd]
    have : r ≠ x := fun h => (List.nodup_cons.1 g1).1 (h ▸ hx)
    omega

/-- C32, the remaining part: the list handed on to the assembly consists of exactly the non-empty sets if and only if
every emptied set is followed by a non-empty one (the clean-up loop skips an element after each erasure). -/
theorem C32_cleanup (l : List Ident) : cleanup l = some (l.filter fun d => d.dofs ≠ []) ↔
    ∀ (k : Nat) (d : Ident), l[k]? = some d → d.dofs = [] → ∃ e : Ident, l[k + 1]? = some e ∧ e.dofs ≠ [] :=
  cleanup_iff l

/-- C32 (partial): for polynomial degree at least 1 and every conforming, consistently oriented patch collection for
which the emptied sets are isolated (see `C32_cleanup`), the whole computation succeeds and the glue matrix identifies
exactly the linked dofs, with entries 1.  Missing: the condition on the emptied sets does not always hold
(`C32_violated`). -/
theorem C32_glue_partial (P M p rep : Nat) (hP : 0 < P) (hp : 1 ≤ p) (hc : ConformingPatches near corner P)
    (ho : OrientedPatches corner P) :
    ∃ (t : Mesh.Tree K) (st : Store), initElementTree near corner P M = some t ∧
      identifyCont (oneDDim p rep M) (P * (oneDDim p rep M * oneDDim p rep M)) (patchTopologyInfo t) = some st ∧
      ((∀ (k : Nat) (d : Ident), st.out[k]? = some d → d.dofs = [] →
          ∃ e : Ident, st.out[k + 1]? = some e ∧ e.dofs ≠ []) →
        ∃ ids post trips, makeIdentificationCont p rep M (P * (oneDDim p rep M * oneDDim p rep M))
            (patchTopologyInfo t) = some ids ∧ (∀ d ∈ ids, d.dofs ≠ []) ∧
          assembleGlueMatrix (P * (oneDDim p rep M * oneDDim p rep M)) ids = some (post, trips) ∧
          GlueMatrix (P * (oneDDim p rep M * oneDDim p rep M)) post trips (Linked corner P (oneDDim p rep M)) ∧
          ∀ x ∈ trips, x.2.2 = 1) := by
  set n := oneDDim p rep M with hn
  have hn2 : 2 ≤ n := by
    rw [hn]; unfold oneDDim; omega
  obtain ⟨t, h1, h2⟩ := edgeList_topo (K := K) near corner P M hP hc
  obtain ⟨st, h3, I⟩ := identify_facts hn2 h2 hc.distinct ho
  obtain ⟨f1, f2, f3⟩ := sets_facts hn2 h2 I
  refine ⟨t, st, h1, h3, ?_⟩
  intro hcl
  have g := good_filter corner hn2 h2 I
  obtain ⟨post, trips, a1, a2, a3, a4⟩ := glueMatrix_of_good _ _ g
  refine ⟨_, post, trips, ?_, g.ne, a1, ⟨a2.rows, a2.cols, a2.onto, ?_⟩, ?_⟩
  · unfold makeIdentificationCont
    rw [if_neg (by omega), ← hn, h3]
    simp only [Option.bind_eq_bind, Option.bind_some]
    exact (cleanup_iff _).2 hcl
  · intro x hx y hy
    rw [a2.same x hx y hy]
    constructor
    · rintro (h | ⟨d, hd, h4, h5⟩)
      · exact Or.inl h
      · by_cases hxy : x.1 = y.1
        · exact Or.inl hxy
        · exact Or.inr ((f3 _ _ hxy).1 ⟨d, (List.mem_filter.1 hd).1, h4, h5⟩)
    · rintro (h | h)
      · exact Or.inl h
      · by_cases hxy : x.1 = y.1
        · exact Or.inl hxy
        · obtain ⟨s, hs, h4, h5⟩ := (f3 _ _ hxy).2 h
          refine Or.inr ⟨s, List.mem_filter.2 ⟨hs, ?_⟩, h4, h5⟩
          simpa using List.ne_nil_of_mem h4
  · intro x hx
    by_cases hs : ∀ d ∈ st.out.filter (fun d => d.dofs ≠ []), x.1 ∉ d.dofs.tail
    · exact (a3 x hx).2 hs
    · push Not at hs
      obtain ⟨d, hd, h4⟩ := hs
      rw [(a3 x hx).1 d hd h4]
      exact ((f2 d (List.mem_filter.1 hd).1).2.2 (g.ne d hd)).1

/-- C32: linked dofs belong to the same point of a watertight surface. -/
theorem C32_same_point {K : Type} [Field K] [LinearOrder K] [IsStrictOrderedRing K] (P n : Nat) (hn : 2 ≤ n)
    (ho : OrientedPatches corner P) (F : Nat → K × K → V) (hw : Watertight corner P F) (d e : Nat)
    (h : Linked corner P n d e) :
    F (d / (n * n)) (dofParam K n d) = F (e / (n * n)) (dofParam K n e) := by
  induction h with
  | rel d e h =>
    obtain ⟨p, q, i, k, s, hp, hq, hpq, hi, hk, hE, hs, rfl, rfl⟩ := h
    have a := edgePos_lt (n := n) (by omega) hi hs
    have b := edgePos_lt (n := n) (s := n - 1 - s) (by omega) hk (by omega)
    have e1 : edgeDof n p i s / (n * n) = p := by unfold edgeDof; rw [dofIndex_div a.1 a.2]
    have e2 : edgeDof n q k (n - 1 - s) / (n * n) = q := by unfold edgeDof; rw [dofIndex_div b.1 b.2]
    rw [e1, e2]
    exact C30_coincide corner P n hn ho F hw p q i k s hp hq hpq hi hk hE hs
  | refl => rfl
  | symm _ _ _ ih => exact ih.symm
  | trans _ _ _ _ _ ih1 ih2 => exact ih1.trans ih2

/-- C32: two different dofs of one patch are never identified, so the glued space keeps all functions of a patch. -/
theorem C32_no_self_identification (P n : Nat) (hn : 2 ≤ n) (hc : ConformingPatches near corner P)
    (ho : OrientedPatches corner P) (d e : Nat) (h : Linked corner P n d e) (hp : d / (n * n) = e / (n * n)) : d = e :=
  linked_inj corner hn ho hc.distinct h hp

/-! ## C33 -/

/-- C33: for divergence conforming spaces on a conforming patch collection (small extent `m ≥ 1`, `m(m+1)` dofs per patch
and component) the identifications are exactly the pairs of normal dofs that face each other across an interior edge,
smaller index first, with the coefficient that turns outward into inward flux; pairs are disjoint. -/
theorem C33_pairs (P M dg rep : Nat) (hP : 0 < P) (hm : 0 < dg + rep * (2 ^ M - 1))
    (hc : ConformingPatches near corner P) :
    let m := dg + rep * (2 ^ M - 1)
    ∃ (t : Mesh.Tree K) (ids : List Ident), initElementTree near corner P M = some t ∧
      makeIdentificationDiv dg rep M P (2 * (P * (m * (m + 1)))) (patchTopologyInfo t) = some ids ∧
      ids.Pairwise (fun a b => ∀ x ∈ a.dofs, x ∉ b.dofs) ∧
      ids.length = m * ((patchTopologyInfo t).filter fun e => e.2.1 ≠ -1).length ∧
      ∀ x, x ∈ ids ↔ ∃ p q i k s d e, NormalPaired corner P m p i q k s d e ∧ p < q ∧
        x = ⟨[min d e, max d e], -(outwardSign i * outwardSign k)⟩ := by
  intro m
  obtain ⟨t, h1, h2⟩ := edgeList_topo (K := K) near corner P M hP hc
  refine ⟨t, allDiv m P (patchTopologyInfo t), h1, ?_, (goodDiv hm hc h2).disj, ?_, ?_⟩
  · unfold makeIdentificationDiv
    simp only
    have e : 2 * (P * (m * (m + 1))) / (P * 2) = m * (m + 1) := by
      rw [show 2 * (P * (m * (m + 1))) = (P * 2) * (m * (m + 1)) by ring]
      exact Nat.mul_div_cancel_left _ (by omega)
    rw [e, if_neg (by simp [m])]
    have := foldlM_append (edgeIdentsDiv m P) (fun e => (edgeIdentsDiv m P e).getD []) (patchTopologyInfo t)
      (mem_divIdents hm h2) []
    rw [List.nil_append] at this
    exact this
  · unfold allDiv
    have hall : ∀ e ∈ patchTopologyInfo t, ((edgeIdentsDiv m P e).getD []).length =
        if e.2.1 ≠ -1 then m else 0 := by
      intro e h
      rcases (h2.mem e).1 h with ⟨p, q, i, k, a1, a2, a3, a4, a5, rfl⟩ | ⟨p, i, a1, a2, a3, rfl⟩
      · rw [edgeIdents_interior hm a3 a4 a1 a2]
        rw [if_pos (by simp only; omega)]
        simp [m]
      · rw [edgeIdents_boundary hm a2]
        simp
    generalize patchTopologyInfo t = E at hall
    clear h1 h2
    induction E with
    | nil => simp
    | cons e E ih =>
      rw [List.flatMap_cons, List.length_append, ih (fun f hf => hall f (List.mem_cons_of_mem _ hf)),
        hall e (List.mem_cons_self ..), List.filter_cons]
      by_cases he : e.2.1 = -1
      · simp [he]
      · simp only [he, ne_eq, not_false_eq_true, if_true, decide_true, List.length_cons]
        ring
  · intro x
    unfold allDiv
    rw [List.mem_flatMap]
    constructor
    · rintro ⟨e, h, h'⟩
      rcases (h2.mem e).1 h with ⟨p, q, i, k, a1, a2, a3, a4, a5, rfl⟩ | ⟨p, i, a1, a2, a3, rfl⟩
      · rw [edgeIdents_interior hm a3 a4 a1 a2] at h'
        simp only [Option.getD_some, List.mem_map, List.mem_range] at h'
        obtain ⟨a, ha, rfl⟩ := h'
        exact ⟨p, q, i, k, ccw i m a, _, _, ⟨by omega, a2, by omega, a3, a4, a5, ccw_lt ha, rfl, rfl⟩, a1, rfl⟩
      · rw [edgeIdents_boundary hm a2] at h'
        simp at h'
    · rintro ⟨p, q, i, k, s, d, e, ⟨b1, b2, b3, b4, b5, b6, b7, rfl, rfl⟩, hpq, rfl⟩
      refine ⟨_, (h2.mem _).2 (Or.inl ⟨p, q, i, k, hpq, b2, b4, b5, b6, rfl⟩), ?_⟩
      rw [edgeIdents_interior hm b4 b5 hpq b2]
      simp only [Option.getD_some, List.mem_map, List.mem_range]
      exact ⟨ccw i m s, ccw_lt b7, by
        change divIdent m P p q i k (ccw i m s) = _
        simp only [divIdent, ccw_ccw b7]⟩

/-- C33: the resulting glue matrix: one entry per local dof, two dofs share a column exactly if they are paired across an
edge, and the two entries make the outward flux of one patch the inward flux of the other one. -/
theorem C33_flux (P M dg rep : Nat) (hP : 0 < P) (hm : 0 < dg + rep * (2 ^ M - 1))
    (hc : ConformingPatches near corner P) :
    let m := dg + rep * (2 ^ M - 1)
    ∃ (t : Mesh.Tree K) (ids : List Ident) (post : Nat) (trips : List (Nat × Nat × Int)),
      initElementTree near corner P M = some t ∧
      makeIdentificationDiv dg rep M P (2 * (P * (m * (m + 1)))) (patchTopologyInfo t) = some ids ∧
      assembleGlueMatrix (2 * (P * (m * (m + 1)))) ids = some (post, trips) ∧
      GlueMatrix (2 * (P * (m * (m + 1)))) post trips (fun d e => ∃ p q i k s, NormalPaired corner P m p i q k s d e) ∧
      (∀ x ∈ trips, ∀ y ∈ trips, ∀ p q i k s, NormalPaired corner P m p i q k s x.1 y.1 →
        outwardSign i * x.2.2 + outwardSign k * y.2.2 = 0) ∧
      ∀ x ∈ trips, (x.2.2 = 1 ∨ x.2.2 = -1) ∧
        ((∀ e p q i k s, ¬ NormalPaired corner P m p i q k s x.1 e) → x.2.2 = 1) := by
  intro m
  obtain ⟨t, ids, h1, h2, h3, -, h4⟩ := C33_pairs (K := K) near corner P M dg rep hP hm hc
  obtain ⟨t', h1', he⟩ := edgeList_topo (K := K) near corner P M hP hc
  obtain rfl : t' = t := Option.some.inj (h1'.symm.trans h1)
  have hne : ∀ {p q i k s d e}, NormalPaired corner P m p i q k s d e → d ≠ e := by
    rintro p q i k s d e ⟨b1, b2, b3, b4, b5, b6, b7, rfl, rfl⟩ h
    exact b3 (normalDof_inj b4 b5 b7 (by omega) b1 b2 h).1
  have hsym : ∀ {p q i k s d e}, NormalPaired corner P m p i q k s d e →
      NormalPaired corner P m q k p i (m - 1 - s) e d := by
    rintro p q i k s d e ⟨b1, b2, b3, b4, b5, b6, b7, rfl, rfl⟩
    exact ⟨b2, b1, b3.symm, b5, b4, b6.symm, by omega, rfl, by congr 1; omega⟩
  -- every pairing gives an identification
  have hid : ∀ {p q i k s d e}, NormalPaired corner P m p i q k s d e →
      (⟨[min d e, max d e], -(outwardSign i * outwardSign k)⟩ : Ident) ∈ ids := by
    intro p q i k s d e h
    rcases Nat.lt_or_gt_of_ne h.2.2.1 with hlt | hlt
    · exact (h4 _).2 ⟨p, q, i, k, s, d, e, h, hlt, rfl⟩
    · refine (h4 _).2 ⟨q, p, k, i, m - 1 - s, e, d, hsym h, hlt, ?_⟩
      rw [min_comm, max_comm, mul_comm]
  have hlt : ∀ {p q i k s d e}, NormalPaired corner P m p i q k s d e → d < 2 * (P * (m * (m + 1))) := by
    rintro p q i k s d e ⟨b1, b2, b3, b4, b5, b6, b7, rfl, rfl⟩
    exact normalDof_lt b4 b7 b1
  obtain ⟨post, trips, a1, a2, a3, a4⟩ := C31_glue_matrix (2 * (P * (m * (m + 1)))) ids (by
    intro x hx
    obtain ⟨p, q, i, k, s, d, e, h, hpq, rfl⟩ := (h4 x).1 hx
    have b1 := hlt h
    have b2 := hlt (hsym h)
    have b3 := hne h
    refine ⟨_, _, rfl, List.nodup_singleton _, by omega, ?_⟩
    intro y hy
    rw [List.mem_singleton] at hy
    subst hy
    omega) h3
  have hval : ∀ x ∈ trips, ∀ {e p q i k s}, NormalPaired corner P m p i q k s x.1 e →
      x.2.2 = if x.1 < e then 1 else -(outwardSign i * outwardSign k) := by
    intro x hx e p q i k s h
    have hne' := hne h
    split
    · rename_i hlt'
      apply (a3 x hx).2
      intro y hy hxy
      obtain ⟨p', q', i', k', s', d', e', h', -, rfl⟩ := (h4 y).1 hy
      have hin := hid h
      have same := disj_iff h3 hy hin (x := x.1) (List.mem_of_mem_tail hxy) (by
        simp only [List.mem_cons, List.not_mem_nil, or_false]; omega)
      rw [same] at hxy
      simp only [List.tail_cons, List.mem_singleton] at hxy
      omega
    · rename_i hlt'
      have := (a3 x hx).1 _ (hid h) (by
        simp only [List.tail_cons, List.mem_singleton]; omega)
      exact this
  have hsq : ∀ i : Nat, outwardSign i * outwardSign i = 1 := by
    intro i
    unfold outwardSign
    split <;> rfl
  refine ⟨t', ids, post, trips, h1, h2, a1, ⟨a2.rows, a2.cols, a2.onto, ?_⟩, ?_, ?_⟩
  · intro x hx y hy
    rw [a2.same x hx y hy]
    constructor
    · rintro (h | ⟨d, hd, h5, h6⟩)
      · exact Or.inl h
      · obtain ⟨p, q, i, k, s, d, e, h, hpq, rfl⟩ := (h4 d).1 hd
        simp only [List.mem_cons, List.not_mem_nil, or_false] at h5 h6
        by_cases hxy : x.1 = y.1
        · exact Or.inl hxy
        · right
          have hh : (x.1 = d ∧ y.1 = e) ∨ (x.1 = e ∧ y.1 = d) := by omega
          rcases hh with ⟨e1, e2⟩ | ⟨e1, e2⟩
          · exact ⟨p, q, i, k, s, by rw [e1, e2]; exact h⟩
          · exact ⟨q, p, k, i, m - 1 - s, by rw [e1, e2]; exact hsym h⟩
    · rintro (h | ⟨p, q, i, k, s, h⟩)
      · exact Or.inl h
      · refine Or.inr ⟨_, hid h, ?_, ?_⟩ <;> simp only [List.mem_cons, List.not_mem_nil, or_false] <;> omega
  · intro x hx y hy p q i k s h
    have e1 := hval x hx h
    have e2 := hval y hy (hsym h)
    have hne' := hne h
    rcases Nat.lt_or_gt_of_ne hne' with hlt' | hlt'
    · rw [if_pos hlt'] at e1
      rw [if_neg (by omega)] at e2
      rw [e1, e2]
      have := hsq k
      linear_combination -(outwardSign i) * this
    · rw [if_neg (by omega)] at e1
      rw [if_pos (by omega)] at e2
      rw [e1, e2]
      have := hsq i
      linear_combination -(outwardSign k) * this
  · intro x hx
    have hpm : ∀ i : Nat, outwardSign i = 1 ∨ outwardSign i = -1 := by
      intro i
      unfold outwardSign
      split <;> simp
    constructor
    · by_cases hs : ∃ e p q i k s, NormalPaired corner P m p i q k s x.1 e
      · obtain ⟨e, p, q, i, k, s, h⟩ := hs
        rw [hval x hx h]
        split
        · exact Or.inl rfl
        · rcases hpm i with a | a <;> rcases hpm k with b | b <;> rw [a, b] <;> simp
      · left
        apply (a3 x hx).2
        intro y hy hxy
        obtain ⟨p', q', i', k', s', d', e', h', -, rfl⟩ := (h4 y).1 hy
        simp only [List.tail_cons, List.mem_singleton] at hxy
        apply hs
        have hh : x.1 = d' ∨ x.1 = e' := by omega
        rcases hh with e1 | e1
        · exact ⟨_, _, _, _, _, _, e1 ▸ h'⟩
        · exact ⟨_, _, _, _, _, _, e1 ▸ hsym h'⟩
    · intro hs
      apply (a3 x hx).2
      intro y hy hxy
      obtain ⟨p', q', i', k', s', d', e', h', -, rfl⟩ := (h4 y).1 hy
      simp only [List.tail_cons, List.mem_singleton] at hxy
      have hh : x.1 = d' ∨ x.1 = e' := by omega
      rcases hh with e1 | e1
      · exact hs _ _ _ _ _ _ (e1 ▸ h')
      · exact hs _ _ _ _ _ _ (e1 ▸ hsym h')

end

/-! ## Non-vacuity, and the input on which the clean-up fails -/

/-- Non-vacuity of C32: on the surface of a cube (degree 2, no refinement, nine dofs per patch) the emptied sets are
isolated, so that `C32_glue_partial` applies and yields the glue matrix. -/
example : ∃ (t : Mesh.Tree ℚ) (ids : List Ident) (post : Nat) (trips : List (Nat × Nat × Int)),
    initElementTree (fun a b : Nat => a == b) cubeCorner 6 0 = some t ∧
    makeIdentificationCont 2 1 0 (6 * (3 * 3)) (patchTopologyInfo t) = some ids ∧
    assembleGlueMatrix (6 * (3 * 3)) ids = some (post, trips) ∧
    GlueMatrix (6 * (3 * 3)) post trips (Linked cubeCorner 6 3) := by
  obtain ⟨t, st, h1, h2, h3⟩ := C32_glue_partial (K := ℚ) (fun a b : Nat => a == b) cubeCorner 6 0 2 1 (by omega)
    (by omega) cube_conforming cube_oriented
  have hx : ((initElementTree (fun a b : Nat => a == b) cubeCorner 6 0 : Option (Mesh.Tree ℚ)).bind fun t =>
      (identifyCont 3 54 (patchTopologyInfo t)).map fun st => (st.out.zip (st.out.tail ++ [⟨[], 1⟩])).all fun x =>
        decide (x.1.dofs ≠ []) || decide (x.2.dofs ≠ [])) = some true := by decide +kernel
  have hn : oneDDim 2 1 0 = 3 := by decide
  rw [hn] at h2 h3
  rw [h1, Option.bind_some, h2, Option.map_some, Option.some_inj] at hx
  obtain ⟨ids, post, trips, a1, -, a2, a3, -⟩ := h3 (by
    intro k d hk hd
    have hk' : k < st.out.length := (List.getElem?_eq_some_iff.1 hk).1
    have hz : (st.out.zip (st.out.tail ++ [⟨[], 1⟩]))[k]? =
        some (d, (st.out[k + 1]?).getD ⟨[], 1⟩) := by
      rw [List.getElem?_zip_eq_some]
      refine ⟨hk, ?_⟩
      simp only
      rw [List.getElem?_append]
      split
      · rename_i h
        rw [List.getElem?_tail]
        rw [List.length_tail] at h
        rw [List.getElem?_eq_getElem (by omega)]
        rfl
      · rename_i h
        rw [List.length_tail] at h ⊢
        rw [List.getElem?_eq_none (l := st.out) (by omega)]
        rw [show k - (st.out.length - 1) = 0 by omega]
        rfl
    have hall := List.all_eq_true.1 hx _ (List.mem_of_getElem? hz)
    simp only [hd, ne_eq, not_true_eq_false, decide_false, Bool.false_or, decide_eq_true_eq] at hall
    cases hs : st.out[k + 1]? with
    | none => rw [hs] at hall; exact absurd rfl hall
    | some e => rw [hs] at hall; exact ⟨e, rfl, hall⟩)
  exact ⟨t, ids, post, trips, h1, a1, a2, a3⟩

/-- Non-vacuity of C33: lowest order on the surface of a cube (two dofs per patch and component). -/
example : (initElementTree (fun a b : Nat => a == b) cubeCorner 6 0 : Option (Mesh.Tree ℚ)).bind (fun t =>
    (makeIdentificationDiv 1 1 0 6 24 (patchTopologyInfo t)).bind fun ids =>
      (assembleGlueMatrix 24 ids).map fun x => (ids.length, x.1, x.2.length)) = some (12, 12, 24) ∧
    ConformingPatches (fun a b : Nat => a == b) cubeCorner 6 := ⟨by decide +kernel, cube_conforming⟩

/-- An open screen of six quadrilaterals around vertex 0. -/
def fanCorner (p i : Nat) : Nat :=
  ((([[3, 0, 1, 2], [11, 12, 13, 0], [5, 6, 7, 0], [8, 9, 0, 7], [4, 5, 0, 3], [9, 10, 11, 0]] : List (List Nat)).getD p
    []).getD i 0)

theorem fan_conforming : ConformingPatches (fun a b : Nat => a == b) fanCorner 6 := by
  refine ⟨?_, ?_, ?_, ?_⟩
  · intros; simp
  · decide +kernel
  · intro p hp q hq r hr i hi j hj k hk h1 h2
    rw [← edgeTest_iff] at h1 h2
    have h : (List.range 6).all (fun p => (List.range 6).all fun q => (List.range 6).all fun r =>
      (List.range 4).all fun i => (List.range 4).all fun j => (List.range 4).all fun k =>
      (!edgeTest fanCorner p i q j) || (!edgeTest fanCorner p i r k) ||
      decide ((p, i) = (q, j)) || decide ((p, i) = (r, k)) || decide ((q, j) = (r, k))) = true := by decide +kernel
    have h' := all_range (all_range (all_range (all_range (all_range (all_range h hp) hq) hr) hi) hj) hk
    rw [h1, h2] at h'
    simpa only [Bool.not_true, Bool.false_or, Bool.or_eq_true, decide_eq_true_eq, or_assoc] using h'
  · intro p hp q hq hpq i hi i' hi' j hj j' hj' h1 h2
    rw [← edgeTest_iff] at h1 h2
    have h : (List.range 6).all (fun p => (List.range 6).all fun q => (List.range 4).all fun i =>
      (List.range 4).all fun i' => (List.range 4).all fun j => (List.range 4).all fun j' =>
      decide (p = q) || (!edgeTest fanCorner p i q j) || (!edgeTest fanCorner p i' q j') || decide (i = i')) = true := by
      decide +kernel
    have h' := all_range (all_range (all_range (all_range (all_range (all_range h hp) hq) hi) hi') hj) hj'
    rw [h1, h2] at h'
    simpa [hpq] using h'

theorem fan_oriented : OrientedPatches fanCorner 6 := by
  intro p hp q hq hpq i hi j hj h1
  rw [← edgeTest_iff] at h1
  have h : (List.range 6).all (fun p => (List.range 6).all fun q => (List.range 4).all fun i =>
      (List.range 4).all fun j => decide (p = q) || (!edgeTest fanCorner p i q j) ||
        (decide (fanCorner p i = fanCorner q ((j + 1) % 4)) && decide (fanCorner p ((i + 1) % 4) = fanCorner q j)))
      = true := by decide +kernel
  have h' := all_range (all_range (all_range (all_range h hp) hq) hi) hj
  rw [h1] at h'
  simpa [hpq] using h'

/-- C32 is violated: on the screen of six patches, a conforming and consistently oriented collection, the clean-up loop
leaves an empty set in the list for bilinear ansatz functions, and the assembly then reads the first element of an empty
vector. -/
theorem C32_violated : ConformingPatches (fun a b : Nat => a == b) fanCorner 6 ∧ OrientedPatches fanCorner 6 ∧
    ((initElementTree (fun a b : Nat => a == b) fanCorner 6 0 : Option (Mesh.Tree ℚ)).bind fun t =>
      (makeIdentificationCont 1 1 0 24 (patchTopologyInfo t)).map fun ids =>
        (ids.any fun d => d.dofs.isEmpty, (assembleGlueMatrix 24 ids).isNone)) = some (true, true) :=
  ⟨fan_conforming, fan_oriented, by decide +kernel⟩

end Bembel.Props
