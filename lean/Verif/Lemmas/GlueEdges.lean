import Verif.Lemmas.GlueUnion
import Verif.Spec.Glue
import Verif.Lemmas.Knots
import Mathlib.Tactic.Ring
import Mathlib.Tactic.Push
/-!
# Lemmas on the dofs along edges
-/

namespace Bembel
namespace Glue

open Basis Mesh Relation

theorem four_cases {i : Nat} (h : i < 4) : i = 0 ∨ i = 1 ∨ i = 2 ∨ i = 3 := by omega

/-- counter-clockwise position of the `a`-th listed dof of edge `i` -/
def ccw (i m a : Nat) : Nat := if i < 2 then a else m - 1 - a

theorem ccw_ccw {i m a : Nat} (h : a < m) : ccw i m (ccw i m a) = a := by
  unfold ccw; split <;> omega

theorem ccw_lt {i m a : Nat} (h : a < m) : ccw i m a < m := by
  unfold ccw; split <;> omega

theorem edgeX_lt {dx dy i s : Nat} (hi : i < 4) (hx : 0 < dx) (hs : s < edgeLength dx dy i) : edgeX dx i s < dx := by
  rcases four_cases hi with rfl | rfl | rfl | rfl <;> simp [edgeX, edgeLength] at * <;> omega

theorem edgeY_lt {dx dy i s : Nat} (hi : i < 4) (hy : 0 < dy) (hs : s < edgeLength dx dy i) : edgeY dy i s < dy := by
  rcases four_cases hi with rfl | rfl | rfl | rfl <;> simp [edgeY, edgeLength] at * <;> omega

/-- `getEdgeDofIndices` in terms of counter-clockwise positions -/
theorem getEdge_eq (i dx dy : Nat) (shift : Int) (hi : i < 4) (hx : 0 < dx) (hy : 0 < dy)
    (h : edgeLength dx dy i ≤ edgeLength dy dx i) :
    getEdgeDofIndices (i : Int) dx dy shift = some ((List.range (edgeLength dx dy i)).map fun a =>
      ((edgeY dy i (ccw i (edgeLength dx dy i) a) * dx + edgeX dx i (ccw i (edgeLength dx dy i) a) : Nat) : Int) + shift) := by
  unfold getEdgeDofIndices
  rcases four_cases hi with rfl | rfl | rfl | rfl
  · simp only [edgeLength, true_or, if_true] at h ⊢
    rw [if_pos (by norm_num), if_pos h]
    congr 1
    apply List.map_congr_left
    intro a ha
    simp [edgeX, edgeY, ccw]
  · simp only [edgeLength, OfNat.one_ne_ofNat, one_ne_zero, or_self, if_false] at h ⊢
    rw [if_neg (by norm_num), if_pos (by norm_num), if_pos h]
    congr 1
    apply List.map_congr_left
    intro a ha
    simp only [edgeX, edgeY, ccw, one_ne_zero, if_false, if_true, Nat.one_lt_ofNat]
    obtain ⟨m, rfl⟩ : ∃ m, dx = m + 1 := ⟨dx - 1, by omega⟩
    rw [Nat.add_sub_cancel]
    push_cast
    ring
  · simp only [edgeLength, or_true, if_true] at h ⊢
    rw [if_neg (by norm_num), if_neg (by norm_num), if_pos (by norm_num), if_pos h]
    congr 1
    apply List.map_congr_left
    intro a ha
    have ha := List.mem_range.1 ha
    have e1 : dx - 1 - (dx - 1 - a) = a := by omega
    simp only [edgeX, edgeY, ccw, OfNat.ofNat_ne_zero, OfNat.ofNat_ne_one, if_false, if_true, lt_self_iff_false, e1]
    obtain ⟨m, rfl⟩ : ∃ m, dy = m + 1 := ⟨dy - 1, by omega⟩
    rw [Nat.add_sub_cancel]
    push_cast
    ring
  · have e0 : ¬ ((3 : Nat) = 0 ∨ (3 : Nat) = 2) := by omega
    simp only [edgeLength, if_neg e0] at h ⊢
    rw [if_neg (by norm_num), if_neg (by norm_num), if_neg (by norm_num), if_pos (by norm_num), if_pos h]
    congr 1
    apply List.map_congr_left
    intro a ha
    have ha := List.mem_range.1 ha
    have e1 : dy - 1 - (dy - 1 - a) = a := by omega
    have e2 : ¬ ((3 : Nat) < 2) := by omega
    simp only [edgeX, edgeY, ccw, OfNat.ofNat_ne_zero, OfNat.ofNat_ne_one, if_false, if_neg e2, e1,
      if_neg (show ¬ ((3 : Nat) = 2) by omega)]
    push_cast
    ring

theorem reverse_iff {p q : Int} {i k : Nat} (hi : i < 4) (hk : k < 4) :
    reverseParametrized (p, q, (i : Int), (k : Int)) = decide ((i < 2) ↔ (k < 2)) := by
  rcases four_cases hi with rfl | rfl | rfl | rfl <;> rcases four_cases hk with rfl | rfl | rfl | rfl <;> rfl

/-- `zipEdge` pairs counter-clockwise position `s` of the first with `m - 1 - s` of the second edge. -/
theorem zipEdge_eq (m : Nat) (p q : Int) {i k : Nat} (hi : i < 4) (hk : k < 4) (f g : Nat → Nat)
    (hne : ∀ a < m, ∀ b < m, f a ≠ g b) :
    zipEdge m (reverseParametrized (p, q, (i : Int), (k : Int))) ((List.range m).map fun a => (f (ccw i m a) : Int))
      ((List.range m).map fun a => (g (ccw k m a) : Int)) =
    some ((List.range m).map fun a => (min (f (ccw i m a)) (g (m - 1 - ccw i m a)),
      max (f (ccw i m a)) (g (m - 1 - ccw i m a)))) := by
  unfold zipEdge
  refine mapM_eq_some_map _ _ _ fun a ha => ?_
  have ha := List.mem_range.1 ha
  rw [reverse_iff hi hk]
  set j := if (decide ((i < 2) ↔ (k < 2))) = true then m - 1 - a else a with hj
  have hjm : j < m := by rw [hj]; split <;> omega
  have hcc : ccw k m j = m - 1 - ccw i m a := by
    rw [hj]
    simp only [decide_eq_true_eq]
    unfold ccw
    by_cases h1 : i < 2 <;> by_cases h2 : k < 2 <;> simp [h1, h2] <;> omega
  have e1 : ((List.range m).map fun a => (f (ccw i m a) : Int))[a]? = some (f (ccw i m a) : Int) := by
    rw [List.getElem?_map, List.getElem?_range ha]; rfl
  have e2 : ((List.range m).map fun a => (g (ccw k m a) : Int))[j]? = some (g (ccw k m j) : Int) := by
    rw [List.getElem?_map, List.getElem?_range hjm]; rfl
  simp only [e1, e2, Option.bind_eq_bind, Option.bind_some]
  have h1 := hne (ccw i m a) (ccw_lt ha) (m - 1 - ccw i m a) (by have := ccw_lt (i := i) ha; omega)
  rw [hcc, if_neg (by omega)]
  simp

/-! ## labels -/

theorem dofIndex_div {n p x y : Nat} (hx : x < n) (hy : y < n) : dofIndex n p x y / (n * n) = p := by
  unfold dofIndex
  have h : y * n + x < n * n := by nlinarith
  rw [Nat.add_assoc, Nat.mul_comm p, Nat.mul_add_div (by nlinarith)]
  rw [Nat.div_eq_of_lt h]
  rfl

theorem dofIndex_mod {n p x y : Nat} (hx : x < n) (hy : y < n) : dofIndex n p x y % (n * n) = y * n + x := by
  unfold dofIndex
  have h : y * n + x < n * n := by nlinarith
  rw [Nat.add_assoc, Nat.mul_comm p, Nat.mul_add_mod, Nat.mod_eq_of_lt h]

theorem dofIndex_x {n p x y : Nat} (hx : x < n) (hy : y < n) : dofIndex n p x y % (n * n) % n = x := by
  rw [dofIndex_mod hx hy, Nat.mul_comm, Nat.mul_add_mod, Nat.mod_eq_of_lt hx]

theorem dofIndex_y {n p x y : Nat} (hx : x < n) (hy : y < n) : dofIndex n p x y % (n * n) / n = y := by
  rw [dofIndex_mod hx hy, Nat.mul_comm, Nat.mul_add_div (by omega), Nat.div_eq_of_lt hx]
  rfl

theorem exists_dofIndex {n : Nat} (hn : 0 < n) (d : Nat) : ∃ p x y, x < n ∧ y < n ∧ d = dofIndex n p x y := by
  have hnn : 0 < n * n := Nat.mul_pos hn hn
  refine ⟨d / (n * n), d % (n * n) % n, d % (n * n) / n, Nat.mod_lt _ hn, ?_, ?_⟩
  · exact Nat.div_lt_of_lt_mul (Nat.mod_lt _ hnn)
  · unfold dofIndex
    have h1 := Nat.div_add_mod d (n * n)
    have h2 := Nat.div_add_mod (d % (n * n)) n
    rw [Nat.mul_comm (d / (n * n)), Nat.mul_comm (d % (n * n) / n), Nat.add_assoc, h2, h1]

/-- kind of a grid position: corner `j`, position `s` inside edge `i`, or interior -/
def kind (n x y : Nat) : Nat ⊕ (Nat × Nat) ⊕ Unit :=
  if x = 0 ∧ y = 0 then .inl 0
  else if x = n - 1 ∧ y = 0 then .inl 1
  else if x = n - 1 ∧ y = n - 1 then .inl 2
  else if x = 0 ∧ y = n - 1 then .inl 3
  else if y = 0 then .inr (.inl (0, x))
  else if x = n - 1 then .inr (.inl (1, y))
  else if y = n - 1 then .inr (.inl (2, n - 1 - x))
  else if x = 0 then .inr (.inl (3, n - 1 - y))
  else .inr (.inr ())

/-- label of a dof: its geometric position -/
def lab {V : Type} (corner : Nat → Nat → V) (P n d : Nat) : V ⊕ Sym2 (V × Nat) ⊕ Nat :=
  let p := d / (n * n)
  if p < P then
    match kind n (d % (n * n) % n) (d % (n * n) / n) with
    | .inl j => .inl (corner p j)
    | .inr (.inl (i, s)) => .inr (.inl s((corner p i, s), (corner p ((i + 1) % 4), n - 1 - s)))
    | .inr (.inr _) => .inr (.inr d)
  else .inr (.inr d)

theorem kind_edge {n i s : Nat} (hn : 2 ≤ n) (hi : i < 4) (hs : s < n) :
    kind n (edgeX n i s) (edgeY n i s) =
      if s = 0 then .inl i else if s = n - 1 then .inl ((i + 1) % 4) else .inr (.inl (i, s)) := by
  rcases four_cases hi with rfl | rfl | rfl | rfl <;> simp only [edgeX, edgeY, kind] <;>
    by_cases h0 : s = 0 <;> by_cases h1 : s = n - 1 <;> simp [h0, h1] <;> first | omega | skip
  all_goals (split_ifs <;> first | omega | rfl | (simp; omega))

theorem edgeLength_self (n i : Nat) : edgeLength n n i = n := by unfold edgeLength; split <;> rfl

theorem lab_edge {V : Type} (corner : Nat → Nat → V) {P n p i s : Nat} (hp : p < P) (hn : 2 ≤ n) (hi : i < 4) (hs : s < n) :
    lab corner P n (edgeDof n p i s) = if s = 0 then .inl (corner p i) else if s = n - 1 then .inl (corner p ((i + 1) % 4))
      else .inr (.inl s((corner p i, s), (corner p ((i + 1) % 4), n - 1 - s))) := by
  have hx : edgeX n i s < n := edgeX_lt (dy := n) hi (by omega) (by rw [edgeLength_self]; exact hs)
  have hy : edgeY n i s < n := edgeY_lt (dx := n) hi (by omega) (by rw [edgeLength_self]; exact hs)
  unfold lab edgeDof
  simp only [dofIndex_div hx hy, dofIndex_x hx hy, dofIndex_y hx hy, if_pos hp, kind_edge hn hi hs]
  split
  · rename_i j h
    split_ifs at h ⊢ <;> simp_all
  · rename_i j s' h
    split_ifs at h ⊢ <;> simp_all
  · rename_i h
    split_ifs at h <;> simp_all

/-- inverse of `kind` for boundary positions -/
def unkind (n : Nat) : Nat ⊕ (Nat × Nat) ⊕ Unit → Nat × Nat
  | .inl j => (edgeX n j 0, edgeY n j 0)
  | .inr (.inl (i, s)) => (edgeX n i s, edgeY n i s)
  | .inr (.inr _) => (0, 0)

theorem unkind_kind {n x y : Nat} (hx : x < n) (hy : y < n) (hne : kind n x y ≠ .inr (.inr ())) :
    unkind n (kind n x y) = (x, y) := by
  unfold kind at hne ⊢
  split_ifs at hne ⊢ <;> simp [unkind, edgeX, edgeY] at hne ⊢ <;> omega

theorem kind_inj {n x y x' y' : Nat} (hx : x < n) (hy : y < n) (hx' : x' < n) (hy' : y' < n)
    (h : kind n x y = kind n x' y') (hne : kind n x y ≠ .inr (.inr ())) : x = x' ∧ y = y' := by
  have h1 := unkind_kind hx hy hne
  have h2 := unkind_kind hx' hy' (h ▸ hne)
  rw [h, h2] at h1
  simpa [eq_comm] using h1

theorem kind_lt {n x y : Nat} (hx : x < n) (hy : y < n) : (∀ j, kind n x y = .inl j → j < 4) ∧
    ∀ i s, kind n x y = .inr (.inl (i, s)) → i < 4 ∧ 0 < s ∧ s < n - 1 := by
  constructor
  · intro j h
    unfold kind at h
    split_ifs at h <;> simp at h <;> omega
  · intro i s h
    unfold kind at h
    split_ifs at h <;> simp at h <;> omega

theorem lab_inj {V : Type} (corner : Nat → Nat → V) {P n : Nat} (hn : 2 ≤ n)
    (hd : ∀ p < P, ∀ i < 4, ∀ j < 4, corner p i = corner p j → i = j) {d e : Nat} (hl : lab corner P n d = lab corner P n e)
    (hp : d / (n * n) = e / (n * n)) : d = e := by
  obtain ⟨p, x, y, hx, hy, rfl⟩ := exists_dofIndex (n := n) (by omega) d
  obtain ⟨q, x', y', hx', hy', rfl⟩ := exists_dofIndex (n := n) (by omega) e
  rw [dofIndex_div hx hy, dofIndex_div hx' hy'] at hp
  subst hp
  unfold lab at hl
  simp only [dofIndex_div hx hy, dofIndex_x hx hy, dofIndex_y hx hy, dofIndex_div hx' hy', dofIndex_x hx' hy',
    dofIndex_y hx' hy'] at hl
  by_cases hpP : p < P
  · rw [if_pos hpP, if_pos hpP] at hl
    have same : ∀ {h : kind n x y = kind n x' y'}, kind n x y ≠ .inr (.inr ()) →
        dofIndex n p x y = dofIndex n p x' y' := by
      intro h h'
      obtain ⟨rfl, rfl⟩ := kind_inj hx hy hx' hy' h h'
      rfl
    obtain ⟨a1, a2⟩ := kind_lt hx hy
    obtain ⟨b1, b2⟩ := kind_lt hx' hy'
    rcases h1 : kind n x y with j | ⟨i, s⟩ | u <;> rcases h2 : kind n x' y' with j' | ⟨i', s'⟩ | u' <;>
      rw [h1, h2] at hl <;> simp only [Sum.inl.injEq, Sum.inr.injEq, reduceCtorEq] at hl
    · have := hd p hpP j (a1 j h1) j' (b1 j' h2) hl
      refine same (h := ?_) ?_
      · rw [h1, h2, this]
      · rw [h1]; simp
    · have c1 := a2 i s h1
      have c2 := b2 i' s' h2
      have m4 : ∀ i, (i + 1) % 4 < 4 := fun i => Nat.mod_lt _ (by omega)
      have : i = i' ∧ s = s' := by
        rw [Sym2.eq_iff] at hl
        simp only [Prod.mk.injEq] at hl
        rcases hl with ⟨⟨h3, h4⟩, -⟩ | ⟨⟨h3, h4⟩, h5, h6⟩
        · exact ⟨hd p hpP _ c1.1 _ c2.1 h3, h4⟩
        · have e1 := hd p hpP _ c1.1 _ (m4 _) h3
          have e2 := hd p hpP _ (m4 _) _ c2.1 h5
          omega
      refine same (h := ?_) ?_
      · rw [h1, h2, this.1, this.2]
      · rw [h1]; simp
    · exact hl
  · rw [if_neg hpP, if_neg hpP] at hl
    simpa using hl

theorem lab_ident {V : Type} (corner : Nat → Nat → V) {P n : Nat} (hn : 2 ≤ n) (ho : OrientedPatches corner P) {d e : Nat}
    (h : Identified corner P n d e) : lab corner P n d = lab corner P n e := by
  obtain ⟨p, q, i, k, s, hp, hq, hpq, hi, hk, he, hs, rfl, rfl⟩ := h
  obtain ⟨o1, o2⟩ := ho p hp q hq hpq i hi k hk he
  rw [lab_edge corner hp hn hi hs, lab_edge corner hq hn hk (by omega)]
  by_cases h0 : s = 0
  · rw [if_pos h0, if_neg (by omega), if_pos (by omega), o1]
  · by_cases h1 : s = n - 1
    · rw [if_neg h0, if_pos h1, if_pos (by omega), o2]
    · rw [if_neg h0, if_neg h1, if_neg (by omega), if_neg (by omega)]
      have : n - 1 - (n - 1 - s) = s := by omega
      rw [this, o1, o2, Sym2.eq_swap]

theorem linked_lab {V : Type} (corner : Nat → Nat → V) {P n : Nat} (hn : 2 ≤ n) (ho : OrientedPatches corner P) {d e : Nat}
    (h : Linked corner P n d e) : lab corner P n d = lab corner P n e := by
  induction h with
  | rel _ _ h => exact lab_ident corner hn ho h
  | refl => rfl
  | symm _ _ _ ih => exact ih.symm
  | trans _ _ _ _ _ ih1 ih2 => exact ih1.trans ih2

theorem linked_inj {V : Type} (corner : Nat → Nat → V) {P n : Nat} (hn : 2 ≤ n) (ho : OrientedPatches corner P)
    (hd : ∀ p < P, ∀ i < 4, ∀ j < 4, corner p i = corner p j → i = j) {d e : Nat}
    (h : Linked corner P n d e) (hp : d / (n * n) = e / (n * n)) : d = e :=
  lab_inj corner hn hd (linked_lab corner hn ho h) hp

end Glue
end Bembel
