import Verif.Lemmas.Motion
import Verif.Props.MeshSurface
import Verif.Lemmas.PairCongr
import Verif.Model.BlockClusterTree
/-!
# Mesh, bounding balls, block cluster tree and pair integrals of a moved surface
-/

namespace Bembel.Spec.Motion
open Mesh Util Duffy BlockCluster

variable (m : Motion)

/-! ## Mesh -/

theorem foldl_rel {σ σ' ι : Type} (L : List ι) (f : σ → ι → σ) (f' : σ' → ι → σ') (g : σ → σ') (h : ∀ s, ∀ x ∈ L, f' (g s) x = g (f s x))
    (s : σ) : L.foldl f' (g s) = g (L.foldl f s) := by
  induction L generalizing s with
  | nil => rfl
  | cons a L ih =>
    rw [List.foldl_cons, List.foldl_cons, h s a (by simp)]
    exact ih (fun s x hx => h s x (by simp [hx])) _

/-- The state of the corner loop with moved points. -/
noncomputable def corners (s : CornerState V3) : CornerState V3 := ⟨s.uniquePts.map m.pos, s.vert, s.nPoints⟩

theorem initElementTree_pos {K : Type} [Field K] (near : V3 → V3 → Bool) (hn : ∀ x y, near (m.pos x) (m.pos y) = near x y)
    (corner : Nat → Nat → V3) (P M : Nat) :
    (initElementTree near (fun p j => m.pos (corner p j)) P M : Option (Mesh.Tree K)) = initElementTree near corner P M := by
  have hs : ∀ i s j, cornerStep near (fun p j => m.pos (corner p j)) i (m.corners s) j = m.corners (cornerStep near corner i s j) := by
    intro i s j
    have hidx : (s.uniquePts.map m.pos).findIdx (fun u => near u (m.pos (corner i j))) = s.uniquePts.findIdx fun u => near u (corner i j) := by
      rw [List.findIdx_map]
      congr 1
      funext u
      exact hn _ _
    unfold cornerStep corners
    simp only [hidx, List.length_map]
    split <;> simp
  have hc : initCorners near (fun p j => m.pos (corner p j)) P = m.corners (initCorners near corner P) := by
    unfold initCorners Bembel.Basis.forLoop
    have := foldl_rel (List.range P) (fun st i => (List.range 4).foldl (cornerStep near corner i) st)
      (fun st i => (List.range 4).foldl (cornerStep near (fun p j => m.pos (corner p j)) i) st) m.corners (fun s i _ => ?_)
      ⟨[], fun _ _ => 0, 0⟩
    · exact this
    exact foldl_rel (List.range 4) _ _ m.corners (fun s j _ => hs i s j) s
  unfold initElementTree initPatches
  rw [hc]
  rfl

/-! ## Balls -/

/-- The moved ball. -/
noncomputable def ball (b : Ball V3) : Ball V3 := ⟨m.pos b.mid, b.rad⟩

theorem enclosing_pos (b1 b2 : Ball V3) : computeEnclosingBall (m.ball b1) (m.ball b2) = (computeEnclosingBall b1 b2).map m.ball := by
  unfold computeEnclosingBall
  simp only [ball, pos_sub, norm_rot]
  split
  · rfl
  split
  · rfl
  split
  · rfl
  simp only [Option.map_some, ball]
  congr 2
  have : ∀ (t : ℝ) (z : V3), (0.5 : ℝ) • (m.pos b1.mid + m.pos b2.mid + t • m.rot z) = m.pos ((0.5 : ℝ) • (b1.mid + b2.mid + t • z)) := by
    intro t z
    unfold pos
    rw [rot_smul, rot_add, rot_add, rot_smul]
    have : m.b = (0.5 : ℝ) • (m.b + m.b) := by rw [← two_smul ℝ m.b, smul_smul]; norm_num
    conv_rhs => rw [this]
    rw [← smul_add]
    congr 1
    abel
  exact this _ _

theorem encloseFour_pos (b0 b1 b2 b3 : Ball V3) :
    encloseFour (m.ball b0) (m.ball b1) (m.ball b2) (m.ball b3) = (encloseFour b0 b1 b2 b3).map m.ball := by
  unfold encloseFour
  simp only [enclosing_pos, Option.bind_eq_bind]
  cases computeEnclosingBall b0 b2 with
  | none => rfl
  | some x =>
  cases computeEnclosingBall b1 b3 with
  | none => rfl
  | some y => exact enclosing_pos m x y

/-- The balls of all nodes in `S` are moved. -/
def Moved (S : Addr → Prop) (B B' : Addr → Ball V3) : Prop := ∀ b, S b → B' b = m.ball (B b)

theorem fold_moved (f f' : Addr → (Addr → Ball V3) → Option (Addr → Ball V3)) (D : Addr → Addr → Prop) (L : List Addr)
    (hf : ∀ a ∈ L, ∀ S B B' r, m.Moved S B B' → f a B = some r → ∃ r', f' a B' = some r' ∧ m.Moved (fun b => S b ∨ D a b) r r')
    (S : Addr → Prop) (B B' r : Addr → Ball V3) (h : m.Moved S B B') (hr : L.foldlM (fun B a => f a B) B = some r) :
    ∃ r', L.foldlM (fun B a => f' a B) B' = some r' ∧ m.Moved (fun b => S b ∨ ∃ a ∈ L, D a b) r r' := by
  induction L generalizing S B B' with
  | nil =>
    obtain rfl : B = r := Option.some.inj hr
    exact ⟨B', rfl, fun b hb => h b (by simpa using hb)⟩
  | cons a L ih =>
    rw [List.foldlM_cons] at hr
    cases e : f a B with
    | none => rw [e] at hr; simp at hr
    | some B1 =>
      rw [e] at hr
      obtain ⟨B1', e', h1⟩ := hf a (by simp) S B B' B1 h e
      obtain ⟨r', e2, h2⟩ := ih (fun a ha => hf a (by simp [ha])) _ _ _ h1 hr
      refine ⟨r', by rw [List.foldlM_cons, e']; exact e2, fun b hb => h2 b ?_⟩
      rcases hb with hb | ⟨c, hc, hb⟩
      · exact Or.inl (Or.inl hb)
      · rcases List.mem_cons.1 hc with rfl | hc
        · exact Or.inl (Or.inr hb)
        · exact Or.inr ⟨c, hc, hb⟩

theorem updA_moved (S : Addr → Prop) (B B' : Addr → Ball V3) (h : m.Moved S B B') (a : Addr) (b : Ball V3) :
    m.Moved (fun c => S c ∨ c = a) (updA B a b) (updA B' a (m.ball b)) := by
  intro c hc
  unfold updA
  by_cases e : c = a
  · rw [if_pos e, if_pos e]
  · rw [if_neg e, if_neg e]
    exact h c (hc.resolve_right e)

theorem encloseRec_moved (refined : Addr → Bool) (vert : Addr → Nat → Nat) (pts pts' : Nat → V3) (k : Nat) :
    ∀ fuel a, k < fuel → (∀ j < k, ∀ b ∈ below a j, refined b = true) → (∀ b ∈ below a k, refined b = false) →
    (∀ b ∈ below a k, ∀ i < 4, pts' (vert b i) = m.pos (pts (vert b i))) → ∀ S B B' r, m.Moved S B B' →
    encloseRec refined vert pts fuel a B = some r →
    ∃ r', encloseRec refined vert pts' fuel a B' = some r' ∧ m.Moved (fun b => S b ∨ ∃ j ≤ k, b ∈ below a j) r r' := by
  induction k with
  | zero =>
    intro fuel a hf _ h2 hp S B B' r hS hr
    obtain ⟨f, rfl⟩ : ∃ f, fuel = f + 1 := ⟨fuel - 1, by omega⟩
    have hnr : ¬ refined a = true := by rw [h2 a (by simp [below])]; simp
    have hpa := hp a (by simp [below])
    unfold encloseRec at hr ⊢
    rw [if_neg hnr] at hr ⊢
    have e : encloseFour (⟨pts' (vert a 0), 0⟩ : Ball V3) ⟨pts' (vert a 1), 0⟩ ⟨pts' (vert a 2), 0⟩ ⟨pts' (vert a 3), 0⟩ =
        (encloseFour (⟨pts (vert a 0), 0⟩ : Ball V3) ⟨pts (vert a 1), 0⟩ ⟨pts (vert a 2), 0⟩ ⟨pts (vert a 3), 0⟩).map m.ball := by
      rw [← encloseFour_pos]
      simp only [ball, hpa 0 (by omega), hpa 1 (by omega), hpa 2 (by omega), hpa 3 (by omega)]
    rw [e]
    cases eb : encloseFour (⟨pts (vert a 0), 0⟩ : Ball V3) ⟨pts (vert a 1), 0⟩ ⟨pts (vert a 2), 0⟩ ⟨pts (vert a 3), 0⟩ with
    | none => rw [eb] at hr; simp at hr
    | some b =>
      rw [eb] at hr
      obtain rfl : updA B a b = r := Option.some.inj hr
      refine ⟨_, rfl, fun c hc => m.updA_moved S B B' hS a b c ?_⟩
      rcases hc with hc | ⟨j, hj, hc⟩
      · exact Or.inl hc
      · obtain rfl : j = 0 := by omega
        exact Or.inr (by simpa [below] using hc)
  | succ k ih =>
    intro fuel a hf h1 h2 hp S B B' r hS hr
    obtain ⟨f, rfl⟩ : ∃ f, fuel = f + 1 := ⟨fuel - 1, by omega⟩
    have hsub : ∀ s ∈ sons a, ∀ j b, b ∈ below s j → b ∈ below a (j + 1) := by
      intro s hs j b hb
      rw [below_succ, List.mem_flatMap]
      exact ⟨s, hs, hb⟩
    unfold encloseRec at hr ⊢
    rw [if_pos (h1 0 (by omega) a (by simp [below]))] at hr ⊢
    have hfold : ∀ (q : Nat → V3) (C : Addr → Ball V3), (List.range 4).foldlM (fun B i => encloseRec refined vert q f (son a i) B) C =
        (sons a).foldlM (fun B s => encloseRec refined vert q f s B) C := by
      intro q C; unfold sons; rw [List.foldlM_map]
    rw [hfold] at hr ⊢
    cases e1 : (sons a).foldlM (fun B s => encloseRec refined vert pts f s B) B with
    | none => rw [e1] at hr; simp at hr
    | some B1 =>
      rw [e1] at hr
      obtain ⟨B1', e1', hB1⟩ := m.fold_moved (fun s B => encloseRec refined vert pts f s B) (fun s B => encloseRec refined vert pts' f s B)
        (fun s b => ∃ j ≤ k, b ∈ below s j) (sons a)
        (fun s hs S B B' r hS hr => ih f s (by omega) (fun j hj b hb => h1 (j + 1) (by omega) b (hsub s hs j b hb))
          (fun b hb => h2 b (hsub s hs k b hb)) (fun b hb => hp b (hsub s hs k b hb)) S B B' r hS hr) S B B' B1 hS e1
      rw [e1']
      have hb : ∀ i < 4, B1' (son a i) = m.ball (B1 (son a i)) := fun i hi =>
        hB1 _ (Or.inr ⟨son a i, mem_sons.2 ⟨i, hi, rfl⟩, 0, by omega, by simp [below]⟩)
      simp only [Option.bind_eq_bind, Option.bind_some] at hr ⊢
      rw [hb 0 (by omega), hb 1 (by omega), hb 2 (by omega), hb 3 (by omega), encloseFour_pos]
      cases eb : encloseFour (B1 (son a 0)) (B1 (son a 1)) (B1 (son a 2)) (B1 (son a 3)) with
      | none => rw [eb] at hr; simp at hr
      | some b =>
        rw [eb] at hr
        obtain rfl : updA B1 a b = r := Option.some.inj hr
        refine ⟨_, rfl, fun c hc => m.updA_moved _ B1 B1' hB1 a b c ?_⟩
        rcases hc with hc | ⟨j, hj, hc⟩
        · exact Or.inl (Or.inl hc)
        · cases j with
          | zero => exact Or.inr (by simpa [below] using hc)
          | succ j =>
            rw [below_succ, List.mem_flatMap] at hc
            obtain ⟨s, hs, hc⟩ := hc
            exact Or.inl (Or.inr ⟨s, hs, j, by omega, hc⟩)

/-- The point list of the moved surface. -/
theorem pointList_moved (t : Mesh.Tree ℝ) (F : Nat → ℝ × ℝ → V3) (L : List (Addr × Nat)) (st st' r : (Nat → V3) × (Nat → Nat))
    (S : Nat → Prop) (hS : ∀ v, S v → st'.1 v = m.pos (st.1 v))
    (hr : L.foldlM (fun s x => pointListStep t F x.1 s x.2) st = some r) :
    ∃ r', L.foldlM (fun s x => pointListStep t (fun p x => m.pos (F p x)) x.1 s x.2) st' = some r' ∧
      ∀ v, (S v ∨ ∃ x ∈ L, v = t.vert x.1 x.2) → r'.1 v = m.pos (r.1 v) := by
  induction L generalizing st st' S with
  | nil =>
    obtain rfl : st = r := Option.some.inj hr
    exact ⟨st', rfl, fun v hv => hS v (by simpa using hv)⟩
  | cons x L ih =>
    rw [List.foldlM_cons] at hr ⊢
    unfold pointListStep at hr ⊢
    by_cases hv : t.vert x.1 x.2 < t.nPoints
    · simp only [if_pos hv, Option.bind_eq_bind, Option.bind_some] at hr ⊢
      obtain ⟨r', e, h⟩ := ih _ (Bembel.upd st'.1 (t.vert x.1 x.2) (m.pos (F (t.patch x.1) (vertexParam t x.1 x.2))),
        Bembel.upd st'.2 (t.vert x.1 x.2) (st'.2 (t.vert x.1 x.2) + 1)) (fun v => S v ∨ v = t.vert x.1 x.2) (by
          intro v hv
          show Bembel.upd _ _ _ _ = m.pos (Bembel.upd _ _ _ _)
          unfold Bembel.upd
          by_cases e : v = t.vert x.1 x.2
          · simp only [if_pos e]
          · simp only [if_neg e]
            exact hS v (hv.resolve_right e)) hr
      refine ⟨r', e, fun v hv => h v ?_⟩
      rcases hv with hv | ⟨y, hy, rfl⟩
      · exact Or.inl (Or.inl hv)
      · rcases List.mem_cons.1 hy with rfl | hy
        · exact Or.inl (Or.inr rfl)
        · exact Or.inr ⟨y, hy, rfl⟩
    · simp [if_neg hv] at hr

theorem enclosings_moved (near : V3 → V3 → Bool) (corner : Nat → Nat → V3) (P M : Nat) (hP : 0 < P) (t : Mesh.Tree ℝ)
    (ht : initElementTree near corner P M = some t) (F : Nat → ℝ × ℝ → V3) (junk junk' : Nat → V3) (B0 B0' B : Addr → Ball V3)
    (hB : computeElementEnclosings t F junk B0 = some B) :
    ∃ B', computeElementEnclosings t (fun p x => m.pos (F p x)) junk' B0' = some B' ∧
      ∀ l ≤ M, ∀ a, IsNode P l a → B' a = m.ball (B a) := by
  obtain ⟨t', g1, g2, g3, g4, g5, g6, g7⟩ := Props.tree_facts (K := ℝ) near corner P M hP
  obtain rfl : t' = t := Option.some.inj (g1.symm.trans ht)
  have hel := Props.elements_eq t' P M hP g3 g6
  unfold computeElementEnclosings at hB ⊢
  cases e1 : generatePointList t' F junk with
  | none => rw [e1] at hB; simp at hB
  | some pts =>
  rw [e1] at hB
  simp only [Option.bind_eq_bind, Option.bind_some] at hB
  have hpt : ∃ pts', generatePointList t' (fun p x => m.pos (F p x)) junk' = some pts' ∧
      ∀ a ∈ leaves P M, ∀ j < 4, pts'.1 (t'.vert a j) = m.pos (pts.1 (t'.vert a j)) := by
    unfold generatePointList at e1 ⊢
    rw [hel] at e1 ⊢
    simp only [Option.bind_eq_bind, Option.bind_some, Props.foldlM_pairs] at e1 ⊢
    obtain ⟨r', e, h⟩ := m.pointList_moved t' F _ (junk, fun _ => 0) (junk', fun _ => 0) pts (fun _ => False) (fun _ h => h.elim) e1
    refine ⟨r', e, fun a ha j hj => h _ (Or.inr ⟨(a, j), ?_, rfl⟩)⟩
    simp only [List.mem_flatMap, List.mem_map, List.mem_range]
    exact ⟨a, ha, j, hj, rfl⟩
  obtain ⟨pts', e2, hpts⟩ := hpt
  rw [e2]
  simp only [Option.bind_eq_bind, Option.bind_some]
  have hbl : ∀ p < P, ∀ j b, b ∈ below (p, []) j → b ∈ leaves P j := by
    intro p hp j b hb
    unfold leaves
    rw [List.mem_flatMap]
    exact ⟨p, List.mem_range.2 hp, hb⟩
  have hfold : ∀ (q : Nat → V3) (C : Addr → Ball V3), (List.range t'.nPatches).foldlM
      (fun B i => encloseRec t'.refined t'.vert q (t'.maxLevel + 1) (i, []) B) C =
      ((List.range P).map fun i => (i, [])).foldlM (fun B s => encloseRec t'.refined t'.vert q (M + 1) s B) C := by
    intro q C; rw [List.foldlM_map, g4, g5]
  rw [hfold] at hB ⊢
  obtain ⟨B', e3, h3⟩ := m.fold_moved (fun s B => encloseRec t'.refined t'.vert pts.1 (M + 1) s B)
    (fun s B => encloseRec t'.refined t'.vert pts'.1 (M + 1) s B) (fun s b => ∃ j ≤ M, b ∈ below s j)
    ((List.range P).map fun i => (i, [])) (by
      intro s hs S B B' r hS hr
      obtain ⟨p, hp, rfl⟩ := List.mem_map.1 hs
      rw [List.mem_range] at hp
      refine m.encloseRec_moved t'.refined t'.vert pts.1 pts'.1 M (M + 1) (p, []) (by omega) (fun j hj b hb => ?_) (fun b hb => ?_)
        (fun b hb i hi => hpts b (hbl p hp M b hb) i hi) S B B' r hS hr
      · exact (g7 b).2 ⟨j, hj, hbl p hp j b hb⟩
      · have : ¬ t'.refined b = true := by
          rw [g7 b]
          rintro ⟨j, hj, h⟩
          have h1 := (mem_leaves.1 h).2.1
          have h2 := (mem_leaves.1 (hbl p hp M b hb)).2.1
          omega
        simpa using this) (fun _ => False) B0 B0' B (fun _ h => h.elim) hB
  refine ⟨B', e3, fun l hl a ha => h3 a (Or.inr ⟨(a.1, []), List.mem_map.2 ⟨a.1, List.mem_range.2 ha.1, rfl⟩, l, hl, ?_⟩)⟩
  rw [mem_below]
  exact ⟨rfl, a.2, by simp, ha.2.1, ha.2.2⟩

/-! ## Block cluster tree -/

section
variable {P M : Nat} {B B' : Addr → Ball V3} (hB : ∀ l ≤ M, ∀ a, IsNode P l a → B' a = m.ball (B a))
include hB

theorem compareElements_moved (t : Mesh.Tree ℝ) (a b : Addr) (ha : IsNode P M a) (hb : IsNode P M b) :
    compareElements t B' a b = compareElements t B a b := by
  unfold compareElements elementDist
  simp only [hB M le_rfl a ha, hB M le_rfl b hb, ball, pos_sub, norm_rot]

theorem compareCluster_moved (t : Mesh.Tree ℝ) (eta : ℝ) (minLevel : Int) (c1 c2 : Cluster)
    (h1 : ∀ a, c1 = some a → ∃ l ≤ M, IsNode P l a) (h2 : ∀ a, c2 = some a → ∃ l ≤ M, IsNode P l a) :
    compareCluster t B' eta minLevel c1 c2 = compareCluster t B eta minLevel c1 c2 := by
  unfold compareCluster
  cases c1 with
  | none => rfl
  | some a =>
  cases c2 with
  | none => rfl
  | some b =>
    obtain ⟨l, hl, ha⟩ := h1 a rfl
    obtain ⟨l', hl', hb⟩ := h2 b rfl
    simp only [hB l hl a ha, hB l' hl' b hb, ball, pos_sub, norm_rot]

theorem appendSubtree_moved (t : Mesh.Tree ℝ) (ht : t.nPatches = P) (hr : ∀ b, t.refined b = true ↔ ∃ j < M, b ∈ leaves P j) (eta : ℝ)
    (minLevel : Int) (fuel : Nat) : ∀ (c1 c2 : Cluster) (r c : Option Nat)
    (_ : ∀ a, c1 = some a → ∃ l ≤ M, IsNode P l a) (_ : ∀ a, c2 = some a → ∃ l ≤ M, IsNode P l a),
    appendSubtree t B' eta minLevel fuel c1 c2 r c = appendSubtree t B eta minLevel fuel c1 c2 r c := by
  have hsons : ∀ (c : Cluster) (_ : ∀ a, c = some a → ∃ l ≤ M, IsNode P l a), ∀ a ∈ clusterSons t c, ∃ l ≤ M, IsNode P l a := by
    intro c hc a ha
    cases c with
    | none =>
      obtain ⟨i, hi, rfl⟩ := List.mem_map.1 ha
      exact ⟨0, by omega, by rw [List.mem_range, ht] at hi; exact hi, rfl, by simp⟩
    | some b =>
      simp only [clusterSons] at ha
      split at ha
      · rename_i hb
        obtain ⟨j, hj, hb⟩ := (hr b).1 hb
        obtain ⟨i, hi, rfl⟩ := mem_sons.1 ha
        obtain ⟨x, y, z⟩ := mem_leaves.1 hb
        exact ⟨j + 1, by omega, x, by simp [son, y], by
          intro w hw
          rcases List.mem_cons.1 hw with rfl | hw
          · exact hi
          · exact z w hw⟩
      · simp at ha
  induction fuel with
  | zero => intros; rfl
  | succ f ih =>
    intro c1 c2 r c h1 h2
    unfold appendSubtree
    simp only [m.compareCluster_moved hB t eta minLevel c1 c2 h1 h2]
    split
    · congr 1
      funext i j
      cases e1 : (clusterSons t c1)[i]? with
      | none => rfl
      | some a =>
      cases e2 : (clusterSons t c2)[j]? with
      | none => rfl
      | some b =>
        refine ih (some a) (some b) _ _ ?_ ?_
        · rintro _ ⟨⟩
          exact hsons c1 h1 a (List.mem_of_getElem? e1)
        · rintro _ ⟨⟩
          exact hsons c2 h2 b (List.mem_of_getElem? e2)
    · rfl

end

/-! ## Pair integrals -/

section
variable {E : Type} [Zero E] (ev : SurfPt → SurfPt → E → E) (hev : ∀ p q v, ev (m.point p) (m.point q) v = ev p q v)
include hev

theorem pair_moved {W : Type} [NormedAddCommGroup W] (order : Int) (p : Nat) (t : Mesh.Tree ℝ) (B B' : Addr → Ball W)
    (surf surf' : Addr → ℝ × ℝ → ℝ → SurfPt) (hs : ∀ a x w, surf' a x w = m.point (surf a x w)) (GS : Nat → Cubature ℝ)
    (ffq ffq' : Addr → Nat → SurfPt) (a b : Addr) (hc : compareElements t B' a b = compareElements t B a b)
    (hfa : ∀ k < (GS (farfieldDegree order p).toNat).size, ffq' a k = m.point (ffq a k))
    (hfb : ∀ k < (GS (farfieldDegree order p).toNat).size, ffq' b k = m.point (ffq b k)) :
    evaluateBilinearForm order p t B' ev surf' GS ffq' a b = evaluateBilinearForm order p t B ev surf GS ffq a b := by
  unfold evaluateBilinearForm
  simp only [hc]
  split
  · split
    · split
      · rename_i h
        rw [h]
        congr 1
        unfold integrate0
        refine foldl_range_congr _ _ _ (fun s i hi => foldl_range_congr _ _ _ (fun s j hj => ?_) _) _
        rw [hfa i hi, hfb j hj, hev]
      · simp only [integrate1, hs, hev]
    · simp only [integrate2, hs, hev]
    · simp only [integrate3, hs, hev]
    · simp only [integrate4, hs, hev]
    · rfl
  · rfl

end

theorem map2surface_moved (t : Mesh.Tree ℝ) (geo : Nat → ℝ × ℝ → V3 × V3 × V3) (a : Addr) (x : ℝ × ℝ) (w : ℝ) :
    SuperSpace.map2surface t (m.geometry geo) a x w = m.point (SuperSpace.map2surface t geo a x w) := rfl

end Bembel.Spec.Motion
