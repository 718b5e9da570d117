import Verif.Props.MeshSurface
/-! # The equations of the bounding balls -/

namespace Bembel.Props
open Mesh Spec Util

variable {W : Type} [NormedAddCommGroup W] [NormedSpace ℝ W]

namespace BallEq

/-- The balls below `a` are computed from those of the sons, or from the corners. -/
def Eqs (vert : Addr → Nat → Nat) (pts : Nat → W) (k : Nat) (a : Addr) (B : Addr → Ball W) : Prop :=
  ∀ j ≤ k, ∀ b ∈ below a j,
    (j = k → encloseFour ⟨pts (vert b 0), 0⟩ ⟨pts (vert b 1), 0⟩ ⟨pts (vert b 2), 0⟩ ⟨pts (vert b 3), 0⟩ = some (B b)) ∧
    (j < k → encloseFour (B (son b 0)) (B (son b 1)) (B (son b 2)) (B (son b 3)) = some (B b))

theorem congr {vert : Addr → Nat → Nat} {pts : Nat → W} {k : Nat} {a : Addr} {B B' : Addr → Ball W}
    (h : Eqs vert pts k a B) (e : ∀ b, Sub a b → B' b = B b) : Eqs vert pts k a B' := by
  intro j hj b hb
  have hs := sub_of_below hb
  have hsi : ∀ i, Sub a (son b i) := by
    intro i
    obtain ⟨h1, w, h2⟩ := hs
    exact ⟨h1, i :: w, by simp [son, h2]⟩
  rw [e b hs, e _ (hsi 0), e _ (hsi 1), e _ (hsi 2), e _ (hsi 3)]
  exact h j hj b hb

theorem fold (vert : Addr → Nat → Nat) (pts : Nat → W) (k n : Nat) (f : Addr → (Addr → Ball W) → Option (Addr → Ball W))
    (L : List Addr) (hL : L.Nodup) (hlen : ∀ a ∈ L, a.2.length = n)
    (hf : ∀ a ∈ L, ∀ B B', f a B = some B' → (∀ b, ¬ Sub a b → B' b = B b) ∧ Eqs vert pts k a B')
    (B B' : Addr → Ball W) (h : L.foldlM (fun B a => f a B) B = some B') :
    (∀ b, (∀ a ∈ L, ¬ Sub a b) → B' b = B b) ∧ ∀ a ∈ L, Eqs vert pts k a B' := by
  induction L generalizing B with
  | nil =>
    obtain rfl : B = B' := Option.some.inj h
    exact ⟨by simp, by simp⟩
  | cons a L ih =>
    rw [List.foldlM_cons, Option.bind_eq_bind, Option.bind_eq_some_iff] at h
    obtain ⟨B1, e1, h⟩ := h
    obtain ⟨e2, e3⟩ := hf a (by simp) B B1 e1
    obtain ⟨d2, d3⟩ := ih (List.nodup_cons.1 hL).2 (fun b hb => hlen b (by simp [hb]))
      (fun b hb => hf b (by simp [hb])) B1 h
    refine ⟨?_, ?_⟩
    · intro b hb
      rw [d2 b (fun c hc => hb c (by simp [hc])), e2 b (hb a (by simp))]
    · intro b hb
      rcases List.mem_cons.1 hb with rfl | hb
      · refine congr e3 ?_
        intro c hc
        apply d2
        intro d hd hdc
        have := sub_disjoint (by rw [hlen b (by simp), hlen d (by simp [hd])]) hc hdc
        subst this
        exact (List.nodup_cons.1 hL).1 hd
      · exact d3 b hb

theorem encloseRec_eqs (refined : Addr → Bool) (vert : Addr → Nat → Nat) (pts : Nat → W) (k : Nat) :
    ∀ fuel a B B', (∀ j < k, ∀ b ∈ below a j, refined b = true) → (∀ b ∈ below a k, refined b = false) →
    encloseRec refined vert pts fuel a B = some B' → (∀ b, ¬ Sub a b → B' b = B b) ∧ Eqs vert pts k a B' := by
  induction k with
  | zero =>
    intro fuel a B B' _ h2 h
    cases fuel with
    | zero => simp [encloseRec] at h
    | succ f =>
    unfold encloseRec at h
    rw [if_neg (by rw [h2 a (by simp [below])]; simp), Option.bind_eq_bind, Option.bind_eq_some_iff] at h
    obtain ⟨b, hb, h⟩ := h
    obtain rfl : updA B a b = B' := Option.some.inj h
    refine ⟨?_, ?_⟩
    · intro c hc
      unfold updA
      rw [if_neg (fun h : c = a => hc (h ▸ sub_refl a))]
    · intro j hj c hc
      obtain rfl : j = 0 := by omega
      obtain rfl : c = a := by simpa [below] using hc
      have : updA B c b c = b := by simp [updA]
      rw [this]
      exact ⟨fun _ => hb, by omega⟩
  | succ k ih =>
    intro fuel a B B' h1 h2 h
    cases fuel with
    | zero => simp [encloseRec] at h
    | succ f =>
    have hsub : ∀ s ∈ sons a, ∀ j b, b ∈ below s j → b ∈ below a (j + 1) := by
      intro s hs j b hb
      rw [below_succ, List.mem_flatMap]
      exact ⟨s, hs, hb⟩
    unfold encloseRec at h
    rw [if_pos (h1 0 (by omega) a (by simp [below])), Option.bind_eq_bind, Option.bind_eq_some_iff] at h
    obtain ⟨B1, hB1, h⟩ := h
    rw [Option.bind_eq_bind, Option.bind_eq_some_iff] at h
    obtain ⟨b, hb, h⟩ := h
    obtain rfl : updA B1 a b = B' := Option.some.inj h
    obtain ⟨e2, e3⟩ := fold vert pts k (a.2.length + 1) (fun s B => encloseRec refined vert pts f s B)
      (sons a) (sons_nodup a) (by intro s hs; obtain ⟨i, _, rfl⟩ := mem_sons.1 hs; rfl)
      (by
        intro s hs B B' hB
        exact ih f s B B' (fun j hj b hb => h1 (j + 1) (by omega) b (hsub s hs j b hb))
          (fun b hb => h2 b (hsub s hs k b hb)) hB) B B1 (by rw [← hB1]; unfold sons; rw [List.foldlM_map])
    have hs : ∀ i, updA B1 a b (son a i) = B1 (son a i) := by
      intro i; unfold updA; rw [if_neg (son_ne a i)]
    have ha : updA B1 a b a = b := by simp [updA]
    refine ⟨?_, ?_⟩
    · intro c hc
      unfold updA
      rw [if_neg (fun h : c = a => hc (h ▸ sub_refl a))]
      apply e2
      intro s hs hsc
      obtain ⟨i, _, rfl⟩ := mem_sons.1 hs
      exact hc (sub_son a c i hsc)
    · have hneq : ∀ i c, Sub (son a i) c → c ≠ a := by
        rintro i c ⟨_, w, h⟩ rfl
        have := congrArg List.length h
        simp [son] at this
        omega
      have hsons : ∀ i < 4, Eqs vert pts k (son a i) (updA B1 a b) := by
        intro i hi
        refine congr (e3 (son a i) (mem_sons.2 ⟨i, hi, rfl⟩)) ?_
        intro c hc
        unfold updA
        rw [if_neg (hneq i c hc)]
      intro j hj c hc
      cases j with
      | zero =>
        obtain rfl : c = a := by simpa [below] using hc
        rw [ha, hs, hs, hs, hs]
        exact ⟨by omega, fun _ => hb⟩
      | succ j =>
        rw [below_succ, List.mem_flatMap] at hc
        obtain ⟨s, hss, hc⟩ := hc
        obtain ⟨m, hm, rfl⟩ := mem_sons.1 hss
        have := hsons m hm j (by omega) c hc
        exact ⟨fun h => this.1 (by omega), fun h => this.2 (by omega)⟩

/-- The balls of all nodes. -/
theorem equations (near : W → W → Bool) (corner : Nat → Nat → W) (P M : Nat) (hP : 0 < P)
    (hc : ConformingPatches near corner P) (F : Nat → ℝ × ℝ → W) (hw : Watertight corner P F) (t : Mesh.Tree ℝ)
    (ht : initElementTree near corner P M = some t) (junk : Nat → W)
    (B0 B : Addr → Ball W) (hB : computeElementEnclosings t F junk B0 = some B) (l : Nat) (hl : l ≤ M) (a : Addr) (ha : IsNode P l a) :
    (l = M → (let q := fun j => F (t.patch a) ((t.llc a).1 + getH t a * (cornerPoint j : ℝ × ℝ).1, (t.llc a).2 + getH t a * (cornerPoint j : ℝ × ℝ).2)
      encloseFour ⟨q 0, 0⟩ ⟨q 1, 0⟩ ⟨q 2, 0⟩ ⟨q 3, 0⟩ = some (B a))) ∧
    (l < M → encloseFour (B (son a 0)) (B (son a 1)) (B (son a 2)) (B (son a 3)) = some (B a)) := by
  obtain ⟨t', N, h1, h2, h3, h4, h5, h6, h7⟩ := topo_facts (K := ℝ) near corner P M hP hc
  obtain rfl : t = t' := Option.some.inj (ht.symm.trans h1)
  obtain ⟨t', g1, g2, g3, g4, g5, g6, g7⟩ := tree_facts (K := ℝ) near corner P M hP
  obtain rfl : t = t' := Option.some.inj (ht.symm.trans g1)
  have hel := elements_eq t P M hP g3 g6
  have good := g2 M le_rfl
  obtain ⟨pts, cnt, e1, e2, e3⟩ := pointList_facts F hel h2 h4
    (glued_levels corner F h3 h6 hc.distinct hw M le_rfl) good junk
  have hbl : ∀ p < P, ∀ j b, b ∈ below (p, []) j → b ∈ leaves P j := by
    intro p hp j b hb
    unfold leaves
    rw [List.mem_flatMap]
    exact ⟨p, List.mem_range.2 hp, hb⟩
  unfold computeElementEnclosings at hB
  rw [e1, g5] at hB
  replace hB : (List.range P).foldlM (fun B i => encloseRec t.refined t.vert pts (t.maxLevel + 1) (i, []) B) B0 = some B := hB
  obtain ⟨-, b3⟩ := fold t.vert pts M 0
    (fun a B => encloseRec t.refined t.vert pts (t.maxLevel + 1) a B) (leaves P 0) (leaves_nodup P 0)
    (fun a ha => (mem_leaves.1 ha).2.1)
    (by
      intro a ha B B' h
      obtain ⟨p, hp, rfl⟩ := mem_leaves_zero.1 ha
      refine encloseRec_eqs t.refined t.vert pts M _ _ B B' ?_ ?_ h
      · intro j hj b hb
        exact (g7 b).2 ⟨j, hj, hbl p hp j b hb⟩
      · intro b hb
        rw [Bool.eq_false_iff]
        intro h
        obtain ⟨j, hj, h⟩ := (g7 b).1 h
        have := (mem_leaves.1 h).2.1
        have := (mem_leaves.1 (hbl p hp M b hb)).2.1
        omega) B0 B (by rw [← hB, leaves_zero, List.foldlM_map])
  have hap : (a.1, []) ∈ leaves P 0 := mem_leaves_zero.2 ⟨a.1, ha.1, rfl⟩
  have hab : a ∈ below (a.1, []) l := mem_below.2 ⟨rfl, a.2, by simp, ha.2.1, ha.2.2⟩
  obtain ⟨r1, r2⟩ := b3 _ hap l hl a hab
  refine ⟨fun h => ?_, r2⟩
  subst h
  have := r1 rfl
  have hbl : a ∈ leaves P l := mem_leaves.2 ha
  rw [e2 a hbl 0 (by norm_num), e2 a hbl 1 (by norm_num), e2 a hbl 2 (by norm_num), e2 a hbl 3 (by norm_num)] at this
  simp only [surf_eq F t a (good a hbl)] at this
  exact this

/-- Two balls with the same radius. -/
theorem two_equal (m1 m2 : W) (r : ℝ) (hr : 0 ≤ r) : computeEnclosingBall ⟨m1, r⟩ ⟨m2, r⟩ = some ⟨(1 / 2 : ℝ) • (m1 + m2), r + ‖m1 - m2‖ / 2⟩ := by
  unfold computeEnclosingBall
  simp only
  have hn := norm_nonneg (m1 - m2)
  by_cases h : ‖m1 - m2‖ = 0
  · rw [if_pos (by rw [h]; linarith)]
    have e : m1 = m2 := sub_eq_zero.1 (norm_eq_zero.1 h)
    subst e
    rw [h]
    congr 2
    · rw [← two_smul ℝ, smul_smul]; norm_num
    · ring
  · have : 0 < ‖m1 - m2‖ := lt_of_le_of_ne hn (Ne.symm h)
    rw [if_neg (by linarith), if_neg (by linarith), if_neg h]
    congr 2
    · rw [sub_self, zero_div, zero_smul, add_zero]; norm_num
    · ring

/-- Two balls with the same centre. -/
theorem concentric (m : W) (r s : ℝ) : computeEnclosingBall ⟨m, r⟩ ⟨m, s⟩ = some ⟨m, max r s⟩ := by
  unfold computeEnclosingBall
  simp only [sub_self, norm_zero, zero_add]
  rcases le_total s r with h | h
  · rw [if_pos h, max_eq_left h]
  · by_cases h' : s ≤ r
    · rw [if_pos h', max_eq_left h']
    · rw [if_neg h', if_pos h, max_eq_right h]

/-- Four balls with the same radius whose centres form a parallelogram. -/
theorem four (m0 m1 m2 m3 : W) (r : ℝ) (hr : 0 ≤ r) (h : m0 + m2 = m1 + m3) : encloseFour ⟨m0, r⟩ ⟨m1, r⟩ ⟨m2, r⟩ ⟨m3, r⟩ =
    some ⟨(1 / 2 : ℝ) • (m0 + m2), r + max ‖m0 - m2‖ ‖m1 - m3‖ / 2⟩ := by
  unfold encloseFour
  rw [two_equal _ _ _ hr, two_equal _ _ _ hr, ← h]
  simp only [Option.bind_eq_bind, Option.bind_some]
  rw [concentric, max_add_add_left, max_div_div_right (by norm_num)]

end BallEq
end Bembel.Props
