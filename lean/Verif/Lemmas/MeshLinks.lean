import Verif.Lemmas.MeshFields

set_option linter.unusedSectionVars false

namespace Bembel
namespace Mesh

open Basis

/-- first element or default -/
def hd (L : List Addr) (q : Option Addr) : Option Addr :=
  match L with
  | [] => q
  | b :: _ => some b

/-- last element or default -/
def lst (p : Option Addr) : List Addr → Option Addr
  | [] => p
  | a :: L => lst (some a) L

/-- `L` is a segment of the doubly linked list, preceded by `p` and followed by `q` -/
def Seg (prev next : Addr → Option Addr) : Option Addr → List Addr → Option Addr → Prop
  | _, [], _ => True
  | p, a :: L, q => prev a = p ∧ next a = hd L q ∧ Seg prev next (some a) L q

theorem lst_append (p : Option Addr) (A B : List Addr) : lst p (A ++ B) = lst (lst p A) B := by
  induction A generalizing p with
  | nil => rfl
  | cons a A ih => exact ih _

theorem lst_concat (p : Option Addr) (A : List Addr) (z : Addr) : lst p (A ++ [z]) = some z := by
  rw [lst_append]; rfl

theorem hd_append (A B : List Addr) (q : Option Addr) : hd (A ++ B) q = hd A (hd B q) := by
  cases A <;> rfl

theorem seg_append (prev next : Addr → Option Addr) (p q : Option Addr) (A B : List Addr) :
    Seg prev next p (A ++ B) q ↔ Seg prev next p A (hd B q) ∧ Seg prev next (lst p A) B q := by
  induction A generalizing p with
  | nil => simp [Seg, lst]
  | cons a A ih =>
    rw [List.cons_append, Seg, Seg, ih, hd_append]
    simp only [lst, and_assoc]

theorem seg_congr (prev next prev' next' : Addr → Option Addr) (p q : Option Addr) (L : List Addr)
    (h : ∀ x ∈ L, prev' x = prev x ∧ next' x = next x) (hs : Seg prev next p L q) : Seg prev' next' p L q := by
  induction L generalizing p with
  | nil => trivial
  | cons a L ih =>
    obtain ⟨h1, h2, h3⟩ := hs
    refine ⟨by rw [(h a (by simp)).1, h1], by rw [(h a (by simp)).2, h2], ih _ (fun x hx => h x (by simp [hx])) h3⟩

/-- changing the successor of a segment -/
theorem seg_succ (prev next prev' next' : Addr → Option Addr) (p q q' : Option Addr) (A : List Addr)
    (hn : A.Nodup) (hs : Seg prev next p A q) (h1 : ∀ x ∈ A, prev' x = prev x)
    (h2 : ∀ x ∈ A, next' x = if lst none A = some x then q' else next x) : Seg prev' next' p A q' := by
  rcases List.eq_nil_or_concat A with rfl | ⟨A', z, rfl⟩
  · trivial
  · rw [List.concat_eq_append] at *
    rw [seg_append] at hs ⊢
    obtain ⟨s1, s2, s3, _⟩ := hs
    rw [lst_concat] at h2
    rw [List.nodup_append] at hn
    refine ⟨seg_congr prev next prev' next' _ _ _ (fun x hx => ⟨h1 x (by simp [hx]), ?_⟩) s1, ?_, ?_, trivial⟩
    · rw [h2 x (by simp [hx]), if_neg]
      intro h
      injection h with h
      exact hn.2.2 x hx z (by simp) h.symm
    · rw [h1 z (by simp), s2]
    · rw [h2 z (by simp), if_pos rfl]; rfl

/-- changing the predecessor of a segment -/
theorem seg_pred (prev next prev' next' : Addr → Option Addr) (p p' q : Option Addr) (B : List Addr)
    (hn : B.Nodup) (hs : Seg prev next p B q) (h1 : ∀ x ∈ B, next' x = next x)
    (h2 : ∀ x ∈ B, prev' x = if hd B none = some x then p' else prev x) : Seg prev' next' p' B q := by
  match B, hn, hs with
  | [], _, _ => trivial
  | z :: B, hn, hs =>
    obtain ⟨s1, s2, s3⟩ := hs
    refine ⟨by rw [h2 z (by simp)]; exact if_pos rfl, by rw [h1 z (by simp), s2], ?_⟩
    refine seg_congr prev next prev' next' _ _ _ (fun x hx => ⟨?_, h1 x (by simp [hx])⟩) s3
    rw [h2 x (by simp [hx]), if_neg]
    intro h
    injection h with h
    subst h
    exact (List.nodup_cons.1 hn).1 hx

/-- Result of the linked list code for a node whose neighbours in the list are not the node itself nor its
(new) sons. -/
theorem links_final (c : Addr) (l : Links)
    (hp : ∀ x, l.prev c = some x → x ≠ c ∧ x ∉ sons c) (hn : ∀ x, l.next c = some x → x ≠ c ∧ x ∉ sons c) :
    let r := forLoop 4 (linkStep c) l
    (r.pfirst = if l.pfirst = some c then some (son c 0) else l.pfirst) ∧
    (r.plast = if l.plast = some c then some (son c 3) else l.plast) ∧
    r.prev (son c 0) = l.prev c ∧ r.prev (son c 1) = some (son c 0) ∧ r.prev (son c 2) = some (son c 1) ∧
    r.prev (son c 3) = some (son c 2) ∧
    r.next (son c 0) = some (son c 1) ∧ r.next (son c 1) = some (son c 2) ∧ r.next (son c 2) = some (son c 3) ∧
    r.next (son c 3) = l.next c ∧
    (∀ x, x ≠ c → x ∉ sons c → r.next x = if l.prev c = some x then some (son c 0) else l.next x) ∧
    (∀ x, x ≠ c → x ∉ sons c → r.prev x = if l.next c = some x then some (son c 3) else l.prev x) := by
  have hs : ∀ i j, son c i = son c j ↔ i = j := fun i j => by rw [son_inj]; simp
  have hsc : ∀ i, ¬ (son c i = c) := fun i => son_ne c i
  have hcs : ∀ i, ¬ (c = son c i) := fun i h => son_ne c i h.symm
  cases hpc : l.prev c with
  | none =>
    cases hnc : l.next c with
    | none =>
      simp [forLoop_four, linkStep, hpc, hnc, updA, hs, hsc, hcs, mem_sons]
      refine ⟨?_, ?_⟩ <;>
      · intro a b h1 h2
        simp [h1, h2 0, h2 1, h2 2, h2 3]
    | some q =>
      have hq := hn q hnc
      have hq1 : ¬ (c = q) := fun h => hq.1 h.symm
      have hq2 : ∀ i < 4, ¬ (son c i = q) := fun i hi h => hq.2 (mem_sons.2 ⟨i, hi, h.symm⟩)
      simp [forLoop_four, linkStep, hpc, hnc, updA, hs, hsc, hcs, mem_sons, hq1, hq2 0, hq2 1, hq2 2, hq2 3]
      refine ⟨?_, ?_⟩ <;>
      · intro a b h1 h2
        simp [h1, h2 0, h2 1, h2 2, h2 3, eq_comm]
  | some p =>
    have hpp := hp p hpc
    have hp1 : ¬ (c = p) := fun h => hpp.1 h.symm
    have hp2 : ∀ i < 4, ¬ (son c i = p) := fun i hi h => hpp.2 (mem_sons.2 ⟨i, hi, h.symm⟩)
    cases hnc : l.next c with
    | none =>
      simp [forLoop_four, linkStep, hpc, hnc, updA, hs, hsc, hcs, mem_sons, hp1, hp2 0, hp2 1, hp2 2, hp2 3]
      refine ⟨?_, ?_⟩ <;>
      · intro a b h1 h2
        simp [h1, h2 0, h2 1, h2 2, h2 3, eq_comm]
    | some q =>
      have hq := hn q hnc
      have hq1 : ¬ (c = q) := fun h => hq.1 h.symm
      have hq2 : ∀ i < 4, ¬ (son c i = q) := fun i hi h => hq.2 (mem_sons.2 ⟨i, hi, h.symm⟩)
      simp [forLoop_four, linkStep, hpc, hnc, updA, hs, hsc, hcs, mem_sons, hp1, hp2 0, hp2 1, hp2 2, hp2 3,
        hq1, hq2 0, hq2 1, hq2 2, hq2 3]
      refine ⟨?_, ?_⟩ <;>
      · intro a b h1 h2
        simp [h1, h2 0, h2 1, h2 2, h2 3, eq_comm]

theorem lst_mem (p : Option Addr) (A : List Addr) (x : Addr) (h : lst p A = some x) : p = some x ∨ x ∈ A := by
  induction A generalizing p with
  | nil => exact Or.inl h
  | cons a A ih =>
    rcases ih _ h with h | h
    · injection h with h; right; simp [h]
    · right; simp [h]

theorem hd_mem (B : List Addr) (x : Addr) (h : hd B none = some x) : x ∈ B := by
  cases B with
  | nil => simp [hd] at h
  | cons b B => simp only [hd] at h; injection h with h; simp [h]

/-- the whole list -/
def Chain (l : Links) (L : List Addr) : Prop :=
  Seg l.prev l.next none L none ∧ l.pfirst = hd L none ∧ l.plast = lst none L

theorem chain_refine (l : Links) (A B : List Addr) (c : Addr) (hL : (A ++ c :: B).Nodup)
    (hfresh : ∀ x ∈ A ++ c :: B, x ∉ sons c) (h : Chain l (A ++ c :: B)) :
    Chain (forLoop 4 (linkStep c) l) (A ++ sons c ++ B) := by
  obtain ⟨hseg, hf, hl⟩ := h
  have hseg' := hseg
  rw [seg_append] at hseg
  obtain ⟨s1, s2, s3, s4⟩ := hseg
  rw [List.nodup_append] at hL
  obtain ⟨nA, ncB, ndis⟩ := hL
  have ncB' := List.nodup_cons.1 ncB
  have hpm : ∀ x, l.prev c = some x → x ∈ A := by
    intro x hx
    rw [s2] at hx
    rcases lst_mem none A x hx with h | h
    · simp at h
    · exact h
  have hnm : ∀ x, l.next c = some x → x ∈ B := by
    intro x hx
    rw [s3] at hx
    exact hd_mem B x hx
  have hAc : ∀ x ∈ A, x ≠ c := fun x hx => ndis x hx c (by simp)
  have hBc : ∀ x ∈ B, x ≠ c := fun x hx h => ncB'.1 (h ▸ hx)
  obtain ⟨r1, r2, r3, r4, r5, r6, r7, r8, r9, r10, r11, r12⟩ := links_final c l
    (fun x hx => ⟨hAc x (hpm x hx), hfresh x (by simp [hpm x hx])⟩)
    (fun x hx => ⟨hBc x (hnm x hx), hfresh x (by simp [hnm x hx])⟩)
  generalize forLoop 4 (linkStep c) l = r at *
  refine ⟨?_, ?_, ?_⟩
  · rw [List.append_assoc, seg_append, seg_append]
    refine ⟨?_, ?_, ?_⟩
    · refine seg_succ l.prev l.next _ _ _ _ _ _ nA s1 ?_ ?_
      · intro x hx
        rw [r12 x (hAc x hx) (hfresh x (by simp [hx])), if_neg]
        intro h
        exact ndis x hx x (by simp [hnm x h]) rfl
      · intro x hx
        rw [r11 x (hAc x hx) (hfresh x (by simp [hx])), s2]
        rfl
    · rw [sons_eq]
      refine ⟨by rw [r3, s2], r7, r4, r8, r5, r9, r6, ?_, trivial⟩
      rw [r10, s3]; rfl
    · refine seg_pred l.prev l.next _ _ _ _ _ _ ncB'.2 s4 ?_ ?_
      · intro x hx
        rw [r11 x (hBc x hx) (hfresh x (by simp [hx])), if_neg]
        intro h
        exact ndis x (hpm x h) x (by simp [hx]) rfl
      · intro x hx
        rw [r12 x (hBc x hx) (hfresh x (by simp [hx])), s3]
        rfl
  · rw [r1, hf]
    cases A with
    | nil => simp [hd, sons_eq]
    | cons a A =>
      have : a ≠ c := hAc a (by simp)
      simp [hd, this]
  · rw [r2, hl, lst_append, lst_append, lst_append]
    rcases List.eq_nil_or_concat B with rfl | ⟨B', z, rfl⟩
    · rw [sons_eq]; simp [lst]
    · rw [List.concat_eq_append] at *
      have : z ≠ c := hBc z (by simp)
      rw [lst_concat]
      simp only [lst, lst_concat]
      rw [if_neg]
      intro h
      injection h with h
      exact this h

variable {K : Type} [Field K] [CharZero K]

/-- Links of a tree. -/
def Tree.links (t : Tree K) : Links := ⟨t.prev, t.next, t.pfirst, t.plast⟩

theorem links_refineLeaf (t : Tree K) (c : Addr) (h : t.refined c = false) :
    (refineLeaf t c).links = forLoop 4 (linkStep c) t.links := by
  obtain ⟨_, _, _, _, _, _, e7, e8, e9, e10, _⟩ := refineLeaf_eqs t c h
  simp only [Tree.links, e7, e8, e9, e10]

theorem links_inv (t : Tree K) (P : Nat) (href : ∀ b, t.refined b = false) (h0 : Chain t.links (leaves P 0))
    (k : Nat) : Chain (levelTree t P k).links (leaves P k) := by
  have := level_induction (K := K) (fun k pre post u => Chain u.links (pre.flatMap sons ++ post)) t P
    (by simpa using h0)
    (by
      intro k pre a post u hL hI hr
      have hnd := leaves_nodup P k
      have hlev : ∀ x ∈ pre ++ a :: post, x.2.length = k := fun x hx => by
        rw [← hL] at hx; exact (mem_leaves.1 hx).2.1
      rw [links_refineLeaf u a (not_refined_of_pass hL hr)]
      have := chain_refine u.links (pre.flatMap sons) post a ?_ ?_ hI
      · rw [List.flatMap_append]
        simpa using this
      · rw [hL] at hnd
        rw [List.nodup_append] at hnd ⊢
        refine ⟨flatMap_sons_nodup _ hnd.1, hnd.2.1, ?_⟩
        intro x hx y hy hxy
        subst hxy
        obtain ⟨b, hb, hx⟩ := List.mem_flatMap.1 hx
        obtain ⟨i, _, rfl⟩ := mem_sons.1 hx
        have e1 := hlev b (by simp [hb])
        have e2 := hlev (son b i) (by simp only [List.mem_append]; exact Or.inr hy)
        simp only [son, List.length_cons] at e2
        omega
      · intro x hx hs
        obtain ⟨i, _, rfl⟩ := mem_sons.1 hs
        rw [List.mem_append] at hx
        have ea := hlev a (by simp)
        rcases hx with hx | hx
        · obtain ⟨b, hb, hx⟩ := List.mem_flatMap.1 hx
          obtain ⟨j, _, hj⟩ := mem_sons.1 hx
          have hab := (son_inj.1 hj).1
          subst hab
          rw [hL] at hnd
          rw [List.nodup_append] at hnd
          exact hnd.2.2 a hb a (by simp) rfl
        · have e2 := hlev (son a i) (by simp only [List.mem_append]; exact Or.inr hx)
          simp only [son, List.length_cons] at e2
          omega)
    (by
      intro k u hI
      simpa [leaves_succ] using hI)
    href k
  simpa using this

/-! ## walking along the list -/

theorem walk_seg (prev next : Addr → Option Addr) (A : List Addr) : ∀ (p q : Option Addr) (fuel : Nat),
    Seg prev next p A q → A.length ≤ fuel → (∀ x, q = some x → x ∉ A) →
    walk next fuel (hd A q) q = some A := by
  induction A with
  | nil =>
    intro p q fuel _ _ _
    rw [walk.eq_def]; simp [hd]
  | cons a A ih =>
    intro p q fuel hs hf hq
    obtain ⟨s1, s2, s3⟩ := hs
    obtain ⟨f, rfl⟩ : ∃ f, fuel = f + 1 := ⟨fuel - 1, by simp at hf; omega⟩
    have hne : ¬ (some a = q) := fun h => hq a h.symm (by simp)
    show walk next (f + 1) (some a) q = _
    rw [walk.eq_def]; dsimp only; rw [if_neg hne]
    rw [s2, ih (some a) q f s3 (by simp at hf; omega) (fun x hx h => hq x hx (by simp [h]))]
    rfl

end Mesh
end Bembel
