import Verif.Lemmas.MeshConf
import Verif.Spec.Mesh
import Mathlib.Algebra.Order.Field.Basic
import Mathlib.Tactic.Linarith
import Mathlib.Tactic.Ring
import Mathlib.Tactic.NormNum
/-!
# Equal vertex numbers belong to equal surface points
-/

set_option linter.unusedSectionVars false

namespace Bembel
namespace Mesh

open Basis

section
variable {K : Type} [Field K] [LinearOrder K] [IsStrictOrderedRing K] {W : Type}

/-- midpoint of two points of the plane -/
def half (c x : K × K) : K × K := ((x.1 + c.1) / 2, (x.2 + c.2) / 2)

/-- Curves and vertices with equal numbers coincide. -/
structure Glued (vert : Addr → Nat → Nat) (S : Addr → Prop) (G : Addr → K × K → W) : Prop where
  pts : ∀ a b i j, S a → S b → i < 4 → j < 4 → vert a i = vert b j → G a (cornerPoint i) = G b (cornerPoint j)
  same : ∀ a b i j, S a → S b → i < 4 → j < 4 → vert a i = vert b j → vert a ((i + 1) % 4) = vert b ((j + 1) % 4) →
    ∀ s : K, 0 ≤ s → s ≤ 1 → G a (edgePoint i s) = G b (edgePoint j s)
  opp : ∀ a b i j, S a → S b → i < 4 → j < 4 → vert a i = vert b ((j + 1) % 4) → vert a ((i + 1) % 4) = vert b j →
    ∀ s : K, 0 ≤ s → s ≤ 1 → G a (edgePoint i s) = G b (edgePoint j (1 - s))

theorem half_corner (i : Nat) (hi : i < 4) : half (cornerPoint i) (cornerPoint i) = (cornerPoint i : K × K) := by
  rcases lt4 hi with rfl | rfl | rfl | rfl <;> simp [half, cornerPoint, edgePoint]

theorem half_first (i : Nat) (hi : i < 4) (s : K) : half (cornerPoint i) (edgePoint i s) = edgePoint i (s / 2) := by
  rcases lt4 hi with rfl | rfl | rfl | rfl <;> simp [half, cornerPoint, edgePoint] <;> ring

theorem half_second (i : Nat) (hi : i < 4) (s : K) :
    half (cornerPoint ((i + 1) % 4)) (edgePoint i s) = edgePoint i ((1 + s) / 2) := by
  rcases lt4 hi with rfl | rfl | rfl | rfl <;> simp [half, cornerPoint, edgePoint] <;> ring

theorem edgePoint_one (i : Nat) (hi : i < 4) : (edgePoint i 1 : K × K) = cornerPoint ((i + 1) % 4) := by
  rcases lt4 hi with rfl | rfl | rfl | rfl <;> simp [cornerPoint, edgePoint]

theorem half_ctr (i : Nat) (hi : i < 4) :
    half (cornerPoint i) (cornerPoint ((i + 2) % 4)) = ((1 / 2, 1 / 2) : K × K) := by
  rcases lt4 hi with rfl | rfl | rfl | rfl <;> simp [half, cornerPoint, edgePoint]

theorem half_inner (e : Nat) (he : e < 4) (s : K) :
    half (cornerPoint e) (edgePoint ((e + 1) % 4) s) =
      half (cornerPoint ((e + 1) % 4)) (edgePoint ((e + 3) % 4) (1 - s)) := by
  rcases lt4 he with rfl | rfl | rfl | rfl <;> simp [half, cornerPoint, edgePoint]

variable {vert : Addr → Nat → Nat} {S : Addr → Prop} {N N' : Nat} {G : Addr → K × K → W}

/-- Gluing is inherited by the sons. -/
theorem glued_sons (c : Conf vert S N) (r : Refd vert S N N')
    (hG : ∀ a, S a → ∀ i < 4, ∀ x, G (son a i) x = G a (half (cornerPoint i) x)) (g : Glued vert S G) :
    Glued vert (SonsOf S) G := by
  have hmid : ∀ a b i j, S a → S b → i < 4 → j < 4 → mid vert a i = mid vert b j →
      G a (edgePoint i (1 / 2)) = G b (edgePoint j (1 / 2)) := by
    intro a b i j ha hb hi hj h
    have hE := (r.mid_iff a b i j ha hb hi hj).1 h
    unfold E elementEdge at hE
    rw [Sym2.eq_iff] at hE
    rcases hE with ⟨h1, h2⟩ | ⟨h1, h2⟩
    · exact g.same a b i j ha hb hi hj h1 h2 _ (by norm_num) (by norm_num)
    · rw [g.opp a b i j ha hb hi hj h1 h2 (1 / 2) (by norm_num) (by norm_num)]
      norm_num
  -- classification of the corners of a son
  have kinds : ∀ a, S a → ∀ i < 4, ∀ j < 4,
      (i = j ∧ vert (son a i) j = vert a i ∧ G (son a i) (cornerPoint j) = G a (cornerPoint i)) ∨
      (∃ e < 4, vert (son a i) j = mid vert a e ∧ G (son a i) (cornerPoint j) = G a (edgePoint e (1 / 2))) ∨
      (vert (son a i) j = ctr vert a ∧ G (son a i) (cornerPoint j) = G a (1 / 2, 1 / 2)) := by
    intro a ha i hi j hj
    have hj' : j = i ∨ j = (i + 1) % 4 ∨ j = (i + 2) % 4 ∨ j = (i + 3) % 4 := by omega
    rcases hj' with rfl | rfl | rfl | rfl
    · exact Or.inl ⟨rfl, r.v0 a ha _ hi, by rw [hG a ha _ hi, half_corner _ hi]⟩
    · refine Or.inr (Or.inl ⟨i, hi, rfl, ?_⟩)
      rw [hG a ha _ hi, ← edgePoint_one i hi, half_first i hi]
    · exact Or.inr (Or.inr ⟨r.v2 a ha i hi, by rw [hG a ha _ hi, half_ctr i hi]⟩)
    · refine Or.inr (Or.inl ⟨(i + 3) % 4, by omega, r.v3 a ha i hi, ?_⟩)
      have h := half_second (K := K) ((i + 3) % 4) (by omega) 0
      rw [show ((i + 3) % 4 + 1) % 4 = i by omega] at h
      rw [hG a ha _ hi]
      unfold cornerPoint at h ⊢
      rw [h, add_zero]
  have hson : ∀ a, S a → ∀ j < 4, ∀ s : K,
      G (son a j) (edgePoint j s) = G a (edgePoint j (s / 2)) ∧
      G (son a ((j + 1) % 4)) (edgePoint j s) = G a (edgePoint j ((1 + s) / 2)) := by
    intro a ha j hj s
    exact ⟨by rw [hG a ha j hj, half_first j hj], by rw [hG a ha _ (Nat.mod_lt _ (by omega)), half_second j hj]⟩
  have vsecond : ∀ d, S d → ∀ e < 4, vert (son d ((e + 1) % 4)) e = mid vert d e ∧
        vert (son d ((e + 1) % 4)) ((e + 1) % 4) = vert d ((e + 1) % 4) := by
    intro d hd e he
    have := r.v3 d hd ((e + 1) % 4) (Nat.mod_lt _ (by omega))
    rw [show ((e + 1) % 4 + 3) % 4 = e by omega] at this
    exact ⟨this, r.v0 d hd _ (Nat.mod_lt _ (by omega))⟩
  have vfirst : ∀ d, S d → ∀ e < 4, vert (son d e) e = vert d e ∧ vert (son d e) ((e + 1) % 4) = mid vert d e :=
      fun d hd e he => ⟨r.v0 d hd e he, rfl⟩
  have cs := conf_sons c r
  -- curves
  have crv : ∀ a b i j k l, S a → S b → i < 4 → j < 4 → k < 4 → l < 4 →
      E vert (son a i) j = E vert (son b k) l → ∀ s : K, 0 ≤ s → s ≤ 1 →
      (vert (son a i) j = vert (son b k) l → G (son a i) (edgePoint j s) = G (son b k) (edgePoint l s)) ∧
      (vert (son a i) j = vert (son b k) ((l + 1) % 4) →
        G (son a i) (edgePoint j s) = G (son b k) (edgePoint l (1 - s))) := by
    intro a b i j k l ha hb hi hj hk hl hE s h0 h1
    rw [son_edge_eq c r ha hb hi hj hk hl] at hE
    rcases hE with ⟨o1, o2, x1, x2⟩ | ⟨o1, o2, rfl, x2⟩
    · unfold E elementEdge at x2
      rw [Sym2.eq_iff] at x2
      have hl1 : (l + 1) % 4 < 4 := Nat.mod_lt _ (by omega)
      have hj1 : (j + 1) % 4 < 4 := Nat.mod_lt _ (by omega)
      have nl : l ≠ (l + 1) % 4 := by omega
      have va := c.lt a ha j hj
      have va1 := c.lt a ha _ hj1
      have vb := c.lt b hb l hl
      have vb1 := c.lt b hb _ hl1
      have ma := r.mid_rng a ha j hj
      have mb := r.mid_rng b hb l hl
      rcases o1 with rfl | rfl <;> rcases o2 with rfl | rfl
      · have e2 : vert a ((i + 1) % 4) = vert b ((k + 1) % 4) := by
          rcases x2 with ⟨_, h⟩ | ⟨h, _⟩
          · exact h
          · exact absurd (c.inj b hb _ hk _ hl1 (x1.symm.trans h)) nl
        rw [(hson a ha i hi s).1, (hson b hb k hk s).1, (hson b hb k hk _).1, (vfirst a ha i hi).1,
          (vfirst b hb k hk).1, (vfirst b hb k hk).2]
        exact ⟨fun _ => g.same a b i k ha hb hi hk x1 e2 _ (by linarith) (by linarith), fun h => by omega⟩
      · have e2 : vert a ((i + 1) % 4) = vert b l := by
          rcases x2 with ⟨h, _⟩ | ⟨_, h⟩
          · exact absurd (c.inj b hb _ hl _ hl1 (h.symm.trans x1)) nl
          · exact h
        rw [(hson a ha i hi s).1, (hson b hb l hl s).2, (hson b hb l hl _).2, (vfirst a ha i hi).1,
          (vsecond b hb l hl).1, (vsecond b hb l hl).2]
        refine ⟨fun h => by omega, fun _ => ?_⟩
        rw [g.opp a b i l ha hb hi hl x1 e2 _ (by linarith) (by linarith),
          show (1 + (1 - s)) / 2 = 1 - s / 2 by ring]
      · have e2 : vert a j = vert b ((k + 1) % 4) := by
          rcases x2 with ⟨_, h⟩ | ⟨h, _⟩
          · exact absurd (c.inj b hb _ hk _ hl1 (x1.symm.trans h)) nl
          · exact h
        rw [(hson a ha j hj s).2, (hson b hb k hk s).1, (hson b hb k hk _).1, (vsecond a ha j hj).1,
          (vfirst b hb k hk).1, (vfirst b hb k hk).2]
        refine ⟨fun h => by omega, fun _ => ?_⟩
        rw [g.opp a b j k ha hb hj hk e2 x1 _ (by linarith) (by linarith),
          show 1 - (1 + s) / 2 = (1 - s) / 2 by ring]
      · have e2 : vert a j = vert b l := by
          rcases x2 with ⟨h, _⟩ | ⟨_, h⟩
          · exact h
          · exact absurd (c.inj b hb _ hl _ hl1 (h.symm.trans x1)) nl
        rw [(hson a ha j hj s).2, (hson b hb l hl s).2, (hson b hb l hl _).2, (vsecond a ha j hj).1,
          (vsecond b hb l hl).1, (vsecond b hb l hl).2]
        exact ⟨fun _ => g.same a b j l ha hb hj hl e2 x1 _ (by linarith) (by linarith), fun h => by omega⟩
    · have he := innerE_lt i j hi
      have s1 := inner_slot hi hj o1 rfl
      have s2 := inner_slot hk hl o2 x2.symm
      generalize innerE i j = e at *
      have hi1 : (j + 1) % 4 < 4 := Nat.mod_lt _ (by omega)
      have same : i = k → j = l → (vert (son a i) j = vert (son a k) l →
          G (son a i) (edgePoint j s) = G (son a k) (edgePoint l s)) ∧
          (vert (son a i) j = vert (son a k) ((l + 1) % 4) →
        G (son a i) (edgePoint j s) = G (son a k) (edgePoint l (1 - s))) := by
        rintro rfl rfl
        refine ⟨fun _ => rfl, fun h => ?_⟩
        have := cs.inj (son a i) ⟨a, ha, i, hi, rfl⟩ j hj _ hi1 h
        omega
      have hne := r.mid_ctr a a e ha ha he
      have he1 : (e + 1) % 4 < 4 := Nat.mod_lt _ (by omega)
      have he3 : (e + 3) % 4 < 4 := Nat.mod_lt _ (by omega)
      have vA : vert (son a e) ((e + 1) % 4) = mid vert a e := rfl
      have vA2 : vert (son a e) (((e + 1) % 4 + 1) % 4) = ctr vert a := by
        rw [show ((e + 1) % 4 + 1) % 4 = (e + 2) % 4 by omega]; exact r.v2 a ha e he
      have vB : vert (son a ((e + 1) % 4)) ((e + 3) % 4) = ctr vert a := by
        have h1 := r.v2 a ha ((e + 1) % 4) he1
        rwa [show ((e + 1) % 4 + 2) % 4 = (e + 3) % 4 by omega] at h1
      rcases s1 with ⟨e1, e2⟩ | ⟨e1, e2⟩ <;> rcases s2 with ⟨f1, f2⟩ | ⟨f1, f2⟩
      · exact same (by omega) (by omega)
      · subst e1 e2 f1 f2
        refine ⟨fun h => absurd (by rw [← vB, ← h]; rfl) hne, fun _ => ?_⟩
        rw [hG a ha _ he, hG a ha _ he1, half_inner _ he]
      · subst f1 f2 e1 e2
        refine ⟨fun h => absurd (by rw [← vB, h]; rfl) hne, fun _ => ?_⟩
        have := half_inner k he (1 - s)
        rw [hG a ha _ he1, hG a ha _ he, this, sub_sub_cancel]
      · exact same (by omega) (by omega)
  refine ⟨?_, ?_, ?_⟩
  · rintro _ _ j l ⟨a, ha, i, hi, rfl⟩ ⟨b, hb, k, hk, rfl⟩ hj hl h
    rcases kinds a ha i hi j hj with ⟨_, h1, h2⟩ | ⟨e, he, h1, h2⟩ | ⟨h1, h2⟩ <;>
      rcases kinds b hb k hk l hl with ⟨_, h3, h4⟩ | ⟨f, hf, h3, h4⟩ | ⟨h3, h4⟩ <;> rw [h1, h3] at h <;> rw [h2, h4]
    · exact g.pts a b i k ha hb hi hk h
    · have := c.lt a ha i hi; have := r.mid_rng b hb f hf; omega
    · have := c.lt a ha i hi; have := r.ctr_rng b hb; omega
    · have := c.lt b hb k hk; have := r.mid_rng a ha e he; omega
    · exact hmid a b e f ha hb he hf h
    · exact absurd h (r.mid_ctr a b e ha hb he)
    · have := c.lt b hb k hk; have := r.ctr_rng a ha; omega
    · exact absurd h.symm (r.mid_ctr b a f hb ha hf)
    · rw [r.ctr_inj a b ha hb h]
  · rintro _ _ j l ⟨a, ha, i, hi, rfl⟩ ⟨b, hb, k, hk, rfl⟩ hj hl h1 h2 s hs0 hs1
    exact (crv a b i j k l ha hb hi hj hk hl (Sym2.eq_iff.2 (Or.inl ⟨h1, h2⟩)) s hs0 hs1).1 h1
  · rintro _ _ j l ⟨a, ha, i, hi, rfl⟩ ⟨b, hb, k, hk, rfl⟩ hj hl h1 h2 s hs0 hs1
    exact (crv a b i j k l ha hb hi hj hk hl (Sym2.eq_iff.2 (Or.inr ⟨h1, h2⟩)) s hs0 hs1).2 h1

end
end Mesh
end Bembel
