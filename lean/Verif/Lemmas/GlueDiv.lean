import Verif.Lemmas.GlueMesh
/-!
# Lemmas on gluing of divergence conforming spaces
-/

namespace Bembel
namespace Glue

open Basis Mesh Relation

variable {V : Type}

theorem grid_inj {a b x y x' y' p p' : Nat} (hx : x < a) (hy : y < b) (hx' : x' < a) (hy' : y' < b)
    (h : p * (b * a) + y * a + x = p' * (b * a) + y' * a + x') : p = p' ∧ x = x' ∧ y = y' := by
  have e1 : (p * b + y) * a + x = (p' * b + y') * a + x' := by rw [add_mul, add_mul, mul_assoc, mul_assoc]; exact h
  have d := congrArg (· / a) e1
  have m := congrArg (· % a) e1
  simp only [Nat.mul_comm _ a, Nat.mul_add_div (show 0 < a by omega), Nat.mul_add_mod, Nat.div_eq_of_lt hx,
    Nat.div_eq_of_lt hx', Nat.mod_eq_of_lt hx, Nat.mod_eq_of_lt hx', add_zero] at d m
  have d2 := congrArg (· / b) d
  have m2 := congrArg (· % b) d
  simp only [Nat.mul_comm _ b, Nat.mul_add_div (show 0 < b by omega), Nat.mul_add_mod, Nat.div_eq_of_lt hy,
    Nat.div_eq_of_lt hy', Nat.mod_eq_of_lt hy, Nat.mod_eq_of_lt hy', add_zero] at d2 m2
  exact ⟨d2, m, m2⟩

theorem grid_lt {a b x y p P : Nat} (hx : x < a) (hy : y < b) (hp : p < P) : p * (b * a) + y * a + x < P * (b * a) := by
  have h1 : y * a + x < b * a := by nlinarith
  have h2 : (p + 1) * (b * a) ≤ P * (b * a) := Nat.mul_le_mul_right _ hp
  nlinarith

theorem normalDof_lt {m P p i s : Nat} (hi : i < 4) (hs : s < m) (hp : p < P) :
    normalDof m P p i s < 2 * (P * (m * (m + 1))) := by
  unfold normalDof
  split
  · rename_i h
    have h1 := edgeX_lt (dx := m + 1) (dy := m) (s := s) hi (by omega) (by
      rcases h with rfl | rfl <;> simp [edgeLength] <;> exact hs)
    have h2 := edgeY_lt (dx := m + 1) (dy := m) (s := s) hi (by omega) (by
      rcases h with rfl | rfl <;> simp [edgeLength] <;> exact hs)
    have := grid_lt h1 h2 hp
    omega
  · rename_i h
    have h1 := edgeX_lt (dx := m) (dy := m + 1) (s := s) hi (by omega) (by
      rcases four_cases hi with rfl | rfl | rfl | rfl <;> simp [edgeLength] at h ⊢ <;> omega)
    have h2 := edgeY_lt (dx := m) (dy := m + 1) (s := s) hi (by omega) (by
      rcases four_cases hi with rfl | rfl | rfl | rfl <;> simp [edgeLength] at h ⊢ <;> omega)
    have := grid_lt h1 h2 hp
    rw [Nat.mul_comm (m + 1) m] at this
    omega

theorem normalDof_inj {m P p p' i i' s s' : Nat} (hi : i < 4) (hi' : i' < 4) (hs : s < m) (hs' : s' < m)
    (hp : p < P) (hp' : p' < P) (h : normalDof m P p i s = normalDof m P p' i' s') : p = p' ∧ i = i' ∧ s = s' := by
  have first : ∀ {p i s}, (i = 1 ∨ i = 3) → s < m → p < P → edgeX (m + 1) i s < m + 1 ∧ edgeY m i s < m := by
    intro p i s h hs _
    rcases h with rfl | rfl <;> simp [edgeX, edgeY] <;> omega
  have second : ∀ {p i s}, i < 4 → ¬(i = 1 ∨ i = 3) → s < m → p < P → edgeX m i s < m ∧ edgeY (m + 1) i s < m + 1 := by
    intro p i s hi h hs _
    obtain rfl | rfl : i = 0 ∨ i = 2 := by omega
    · simp [edgeX, edgeY]; omega
    · simp [edgeX, edgeY]; omega
  unfold normalDof at h
  by_cases h1 : i = 1 ∨ i = 3 <;> by_cases h2 : i' = 1 ∨ i' = 3
  · rw [if_pos h1, if_pos h2] at h
    obtain ⟨a, b⟩ := first (p := p) h1 hs hp
    obtain ⟨a', b'⟩ := first (p := p') h2 hs' hp'
    obtain ⟨e1, e2, e3⟩ := grid_inj a b a' b' h
    refine ⟨e1, ?_⟩
    rcases h1 with rfl | rfl <;> rcases h2 with rfl | rfl <;> simp [edgeX, edgeY] at e2 e3 ⊢ <;> omega
  · rw [if_pos h1, if_neg h2] at h
    obtain ⟨a, b⟩ := first (p := p) h1 hs hp
    have := grid_lt a b hp
    omega
  · rw [if_neg h1, if_pos h2] at h
    obtain ⟨a, b⟩ := first (p := p') h2 hs' hp'
    have := grid_lt a b hp'
    omega
  · rw [if_neg h1, if_neg h2] at h
    obtain ⟨a, b⟩ := second (p := p) hi h1 hs hp
    obtain ⟨a', b'⟩ := second (p := p') hi' h2 hs' hp'
    have h' : p * ((m + 1) * m) + edgeY (m + 1) i s * m + edgeX m i s =
        p' * ((m + 1) * m) + edgeY (m + 1) i' s' * m + edgeX m i' s' := by
      rw [Nat.mul_comm (m + 1) m]; omega
    obtain ⟨e1, e2, e3⟩ := grid_inj a b a' b' h'
    refine ⟨e1, ?_⟩
    obtain rfl | rfl : i = 0 ∨ i = 2 := by omega
    · obtain rfl | rfl : i' = 0 ∨ i' = 2 := by omega
      · simp [edgeX, edgeY] at e2 e3 ⊢; omega
      · simp [edgeX, edgeY] at e2 e3 ⊢; omega
    · obtain rfl | rfl : i' = 0 ∨ i' = 2 := by omega
      · simp [edgeX, edgeY] at e2 e3 ⊢; omega
      · simp [edgeX, edgeY] at e2 e3 ⊢; omega

theorem coef_eq {p q : Int} {i k : Nat} (hi : i < 4) (hk : k < 4) :
    glueCoefficientDivergenceConforming (p, q, (i : Int), (k : Int)) = -(outwardSign i * outwardSign k) := by
  rcases four_cases hi with rfl | rfl | rfl | rfl <;> rcases four_cases hk with rfl | rfl | rfl | rfl <;> rfl

theorem firstComp_iff {i : Nat} (hi : i < 4) : edgeToBeGluedInFirstComp (i : Int) = decide (i = 1 ∨ i = 3) := by
  rcases four_cases hi with rfl | rfl | rfl | rfl <;> rfl

theorem getEdge_div {m P p i : Nat} (hm : 0 < m) (hi : i < 4) :
    getEdgeDofIndices (i : Int) (if edgeToBeGluedInFirstComp (i : Int) then m + 1 else m)
      (if edgeToBeGluedInFirstComp (i : Int) then m else m + 1)
      ((p : Int) * ((m * (m + 1) : Nat) : Int) + (if edgeToBeGluedInFirstComp (i : Int) then 0 else
        ((m * (m + 1) : Nat) : Int) * (P : Int))) =
      some ((List.range m).map fun a => ((normalDof m P p i (ccw i m a) : Nat) : Int)) := by
  rw [firstComp_iff hi]
  by_cases h : i = 1 ∨ i = 3
  · simp only [h, decide_true, if_true]
    have hl : edgeLength (m + 1) m i = m := by unfold edgeLength; rw [if_neg (by omega)]
    have hl' : edgeLength m (m + 1) i = m + 1 := by unfold edgeLength; rw [if_neg (by omega)]
    rw [getEdge_eq i (m + 1) m _ hi (by omega) hm (by omega), hl]
    congr 1
    apply List.map_congr_left
    intro a _
    rw [normalDof, if_pos h]
    push_cast
    ring
  · simp only [h, decide_false, if_false, Bool.false_eq_true]
    have hl : edgeLength m (m + 1) i = m := by unfold edgeLength; rw [if_pos (by omega)]
    have hl' : edgeLength (m + 1) m i = m + 1 := by unfold edgeLength; rw [if_pos (by omega)]
    rw [getEdge_eq i m (m + 1) _ hi hm (by omega) (by omega), hl]
    congr 1
    apply List.map_congr_left
    intro a _
    rw [normalDof, if_neg h]
    push_cast
    ring

/-- identification number `a` of an interior edge -/
def divIdent (m P p q i k a : Nat) : Ident :=
  ⟨[min (normalDof m P p i (ccw i m a)) (normalDof m P q k (m - 1 - ccw i m a)),
    max (normalDof m P p i (ccw i m a)) (normalDof m P q k (m - 1 - ccw i m a))], -(outwardSign i * outwardSign k)⟩

theorem edgeIdents_interior {m P p q i k : Nat} (hm : 0 < m) (hi : i < 4) (hk : k < 4) (hpq : p < q) (hq : q < P) :
    edgeIdentsDiv m P ((p : Int), (q : Int), (i : Int), (k : Int)) =
      some ((List.range m).map fun a => divIdent m P p q i k a) := by
  unfold edgeIdentsDiv
  rw [if_neg (by push Not; left; simp only; omega)]
  simp only
  rw [getEdge_div hm hi, getEdge_div hm hk]
  simp only [Option.bind_eq_bind, Option.bind_some, List.length_map, List.length_range, true_or, not_true_eq_false, if_false]
  rw [if_pos (by constructor <;> omega), zipEdge_eq m (p : Int) (q : Int) hi hk (normalDof m P p i) (normalDof m P q k)]
  · simp only [Option.bind_some, List.map_map]
    congr 1
    apply List.map_congr_left
    intro a _
    simp only [Function.comp, divIdent, coef_eq hi hk]
  · intro a ha b hb h
    have := normalDof_inj hi hk ha hb (by omega) hq h
    omega

theorem edgeIdents_boundary {m P p i : Nat} (hm : 0 < m) (hi : i < 4) :
    edgeIdentsDiv m P ((p : Int), -1, (i : Int), -1) = some [] := by
  unfold edgeIdentsDiv
  rw [if_neg (by simp)]
  simp only
  rw [getEdge_div hm hi]
  simp [getEdgeDofIndices]

theorem foldlM_append {α β : Type} (f : α → Option (List β)) (g : α → List β) (l : List α)
    (h : ∀ a ∈ l, f a = some (g a)) (s : List β) :
    l.foldlM (fun out a => do let x ← f a; some (out ++ x)) s = some (s ++ l.flatMap g) := by
  induction l generalizing s with
  | nil => simp
  | cons a l ih =>
    rw [List.foldlM_cons, h a (List.mem_cons_self ..)]
    simp only [Option.bind_eq_bind, Option.bind_some] at ih ⊢
    rw [ih (fun b hb => h b (List.mem_cons_of_mem _ hb))]
    simp

/-- all identifications in order -/
def allDiv (m P : Nat) (E : List Edge) : List Ident := E.flatMap fun e => (edgeIdentsDiv m P e).getD []

theorem mem_divIdents {corner : Nat → Nat → V} {m P : Nat} {E : List Edge} (hm : 0 < m) (he : EdgeList corner P E) :
    ∀ e ∈ E, edgeIdentsDiv m P e = some ((edgeIdentsDiv m P e).getD []) := by
  intro e h
  rcases (he.mem e).1 h with ⟨p, q, i, k, h1, h2, h3, h4, h5, rfl⟩ | ⟨p, i, h1, h2, h3, rfl⟩
  · rw [edgeIdents_interior hm h3 h4 h1 h2]; rfl
  · rw [edgeIdents_boundary hm h2]; rfl

theorem twoSides_eq {near : V → V → Bool} {corner : Nat → Nat → V} {P p q i k p' q' i' k' : Nat}
    (hc : ConformingPatches near corner P) (h1 : p < q) (h2 : q < P) (h3 : i < 4) (h4 : k < 4)
    (h5 : patchEdge corner p i = patchEdge corner q k) (g1 : p' < q') (g2 : q' < P) (g3 : i' < 4) (g4 : k' < 4)
    (g5 : patchEdge corner p' i' = patchEdge corner q' k')
    (hs : patchEdge corner p i = patchEdge corner p' i') : p = p' ∧ q = q' ∧ i = i' ∧ k = k' := by
  have a := hc.twoSides p (by omega) q h2 p' (by omega) i h3 k h4 i' g3 h5 hs
  have b := hc.twoSides p (by omega) q h2 q' g2 i h3 k h4 k' g4 h5 (hs.trans g5)
  simp only [Prod.mk.injEq] at a b
  omega

/-- Good input for the glue matrix. -/
theorem goodDiv {near : V → V → Bool} {corner : Nat → Nat → V} {m P : Nat} {E : List Edge} (hm : 0 < m)
    (hc : ConformingPatches near corner P) (he : EdgeList corner P E) :
    GoodIds (2 * (P * (m * (m + 1)))) (allDiv m P E) := by
  have hmem : ∀ d ∈ allDiv m P E, ∃ p q i k a, p < q ∧ q < P ∧ i < 4 ∧ k < 4 ∧
      patchEdge corner p i = patchEdge corner q k ∧ a < m ∧ d = divIdent m P p q i k a := by
    intro d hd
    obtain ⟨e, h, h'⟩ := List.mem_flatMap.1 hd
    rcases (he.mem e).1 h with ⟨p, q, i, k, h1, h2, h3, h4, h5, rfl⟩ | ⟨p, i, h1, h2, h3, rfl⟩
    · rw [edgeIdents_interior hm h3 h4 h1 h2] at h'
      simp only [Option.getD_some, List.mem_map, List.mem_range] at h'
      obtain ⟨a, ha, rfl⟩ := h'
      exact ⟨p, q, i, k, a, h1, h2, h3, h4, h5, ha, rfl⟩
    · rw [edgeIdents_boundary hm h2] at h'
      simp at h'
  have hx : ∀ p q i k a, ∀ x, x ∈ (divIdent m P p q i k a).dofs ↔
      x = normalDof m P p i (ccw i m a) ∨ x = normalDof m P q k (m - 1 - ccw i m a) := by
    intro p q i k a x
    simp only [divIdent, List.mem_cons, List.not_mem_nil, or_false]
    rcases le_total (normalDof m P p i (ccw i m a)) (normalDof m P q k (m - 1 - ccw i m a)) with h | h
    · rw [min_eq_left h, max_eq_right h]
    · rw [min_eq_right h, max_eq_left h, or_comm]
  have hne : ∀ p q i k a, p < q → q < P → i < 4 → k < 4 → a < m →
      normalDof m P p i (ccw i m a) ≠ normalDof m P q k (m - 1 - ccw i m a) := by
    intro p q i k a h1 h2 h3 h4 ha h
    have := normalDof_inj h3 h4 (ccw_lt ha) (by omega) (by omega) h2 h
    omega
  refine ⟨?_, ?_, ?_, ?_, ?_⟩
  · intro d hd
    obtain ⟨p, q, i, k, a, h1, h2, h3, h4, h5, ha, rfl⟩ := hmem d hd
    simp [divIdent]
  · intro d hd
    obtain ⟨p, q, i, k, a, h1, h2, h3, h4, h5, ha, rfl⟩ := hmem d hd
    have := hne p q i k a h1 h2 h3 h4 ha
    simp only [divIdent, List.nodup_cons, List.mem_singleton, List.not_mem_nil, not_false_eq_true, List.nodup_nil,
      and_true]
    omega
  · intro d hd x hxd
    obtain ⟨p, q, i, k, a, h1, h2, h3, h4, h5, ha, rfl⟩ := hmem d hd
    rcases (hx ..).1 hxd with rfl | rfl
    · exact normalDof_lt h3 (ccw_lt ha) (by omega)
    · exact normalDof_lt h4 (by omega) h2
  · intro d hd x hxd
    obtain ⟨p, q, i, k, a, h1, h2, h3, h4, h5, ha, rfl⟩ := hmem d hd
    simp only [divIdent, hd, List.head?_cons, Option.getD_some, List.mem_cons, List.not_mem_nil, or_false] at hxd ⊢
    change Glue.hd _ ≤ x
    simp only [Glue.hd, List.head?_cons, Option.getD_some]
    omega
  · unfold allDiv
    rw [List.pairwise_flatMap]
    have key : ∀ p q i k a p' q' i' k' a', p < q → q < P → i < 4 → k < 4 → patchEdge corner p i = patchEdge corner q k →
        a < m → p' < q' → q' < P → i' < 4 → k' < 4 → patchEdge corner p' i' = patchEdge corner q' k' → a' < m →
        ∀ x, x ∈ (divIdent m P p q i k a).dofs → x ∈ (divIdent m P p' q' i' k' a').dofs →
        (p = p' ∧ q = q' ∧ i = i' ∧ k = k') ∧ a = a' := by
      intro p q i k a p' q' i' k' a' h1 h2 h3 h4 h5 ha g1 g2 g3 g4 g5 ga x hx1 hx2
      have hcc : ∀ {i a a'}, a < m → a' < m → ccw i m a = ccw i m a' → a = a' := by
        intro i a a' ha ha' h
        rw [← ccw_ccw (i := i) ha, h, ccw_ccw ha']
      have l1 := ccw_lt (i := i) ha
      have l2 := ccw_lt (i := i') ga
      rcases (hx ..).1 hx1 with e | e <;> rcases (hx ..).1 hx2 with e' | e' <;> have ee := e.symm.trans e'
      · obtain ⟨b1, b2, b3⟩ := normalDof_inj h3 g3 l1 l2 (by omega) (by omega) ee
        have hs : patchEdge corner p i = patchEdge corner p' i' := by rw [b1, b2]
        have r := twoSides_eq hc h1 h2 h3 h4 h5 g1 g2 g3 g4 g5 hs
        refine ⟨r, ?_⟩
        rw [← b2] at b3
        exact hcc ha ga b3
      · obtain ⟨b1, b2, b3⟩ := normalDof_inj h3 g4 l1 (by omega) (by omega) g2 ee
        have hs : patchEdge corner p i = patchEdge corner p' i' := by rw [g5, b1, b2]
        have r := twoSides_eq hc h1 h2 h3 h4 h5 g1 g2 g3 g4 g5 hs
        omega
      · obtain ⟨b1, b2, b3⟩ := normalDof_inj h4 g3 (by omega) l2 h2 (by omega) ee
        have hs : patchEdge corner p i = patchEdge corner p' i' := by rw [h5, b1, b2]
        have r := twoSides_eq hc h1 h2 h3 h4 h5 g1 g2 g3 g4 g5 hs
        omega
      · obtain ⟨b1, b2, b3⟩ := normalDof_inj h4 g4 (by omega) (by omega) h2 g2 ee
        have hs : patchEdge corner p i = patchEdge corner p' i' := by rw [h5, b1, b2, g5]
        have r := twoSides_eq hc h1 h2 h3 h4 h5 g1 g2 g3 g4 g5 hs
        refine ⟨r, ?_⟩
        rw [← r.2.2.1] at b3 l2
        exact hcc (i := i) ha ga (by omega)
    constructor
    · intro e h
      rcases (he.mem e).1 h with ⟨p, q, i, k, h1, h2, h3, h4, h5, rfl⟩ | ⟨p, i, h1, h2, h3, rfl⟩
      · rw [edgeIdents_interior hm h3 h4 h1 h2]
        simp only [Option.getD_some]
        rw [List.pairwise_map]
        refine (List.pairwise_lt_range (n := m)).imp_of_mem ?_
        intro a a' ha ha' hlt x hx1 hx2
        have := (key p q i k a p q i k a' h1 h2 h3 h4 h5 (List.mem_range.1 ha) h1 h2 h3 h4 h5 (List.mem_range.1 ha')
          x hx1 hx2).2
        omega
      · rw [edgeIdents_boundary hm h2]
        simp
    · refine he.nodup.imp_of_mem ?_
      intro e f h h' hef d hd d' hd' x hx1 hx2
      rcases (he.mem e).1 h with ⟨p, q, i, k, h1, h2, h3, h4, h5, rfl⟩ | ⟨p, i, h1, h2, h3, rfl⟩
      · rcases (he.mem f).1 h' with ⟨p', q', i', k', g1, g2, g3, g4, g5, rfl⟩ | ⟨p', i', g1, g2, g3, rfl⟩
        · rw [edgeIdents_interior hm h3 h4 h1 h2] at hd
          rw [edgeIdents_interior hm g3 g4 g1 g2] at hd'
          simp only [Option.getD_some, List.mem_map, List.mem_range] at hd hd'
          obtain ⟨a, ha, rfl⟩ := hd
          obtain ⟨a', ha', rfl⟩ := hd'
          obtain ⟨⟨rfl, rfl, rfl, rfl⟩, -⟩ := key _ _ _ _ _ _ _ _ _ _ h1 h2 h3 h4 h5 ha g1 g2 g3 g4 g5 ha' x hx1 hx2
          exact hef rfl
        · rw [edgeIdents_boundary hm g2] at hd'
          simp at hd'
      · rw [edgeIdents_boundary hm h2] at hd
        simp at hd

end Glue
end Bembel
