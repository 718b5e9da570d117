import Verif.Lemmas.GlueAsm
import Mathlib.Logic.Relation
/-!
# Lemmas on the identification loop of continuous spaces (union of dof sets)
-/

namespace Bembel
namespace Glue

open Basis Relation

/-- set number `k` -/
def dset (st : Store) (k : Nat) : List Nat := ((st.out[k]?).map Ident.dofs).getD []

/-- linked by a chain of the given pairs -/
def Chain (R : List (Nat × Nat)) : Nat → Nat → Prop := EqvGen fun a b => (a, b) ∈ R

theorem Chain.mono {R S : List (Nat × Nat)} (h : ∀ q ∈ R, q ∈ S) {a b : Nat} (hc : Chain R a b) : Chain S a b :=
  EqvGen.mono (fun a b hab => h (a, b) hab) _ _ hc

/-- Invariant of the union loop: `R` = processed pairs, `rem` = pairs to come. -/
structure UInv (patch : Nat → Nat) (R rem : List (Nat × Nat)) (st : Store) : Prop where
  stored : ∀ d k, st.stored d = some k ↔ d ∈ dset st k
  nodup : ∀ k, (dset st k).Nodup
  dom : ∀ d, st.stored d ≠ none ↔ ∃ q ∈ R, d = q.1 ∨ d = q.2
  sound : ∀ d e k, st.stored d = some k → st.stored e = some k → Chain R d e
  compl : ∀ q ∈ R, st.stored q.1 = st.stored q.2
  coef : ∀ s ∈ st.out, s.dofs ≠ [] → s.coef = 1
  hmin : ∀ k, ∀ x ∈ dset st k, x = (dset st k).head?.getD 0 ∨ patch ((dset st k).head?.getD 0) < patch x
  hmono : ∀ k m, k ≤ m → dset st k ≠ [] → dset st m ≠ [] →
    patch ((dset st k).head?.getD 0) ≤ patch ((dset st m).head?.getD 0)
  hle : ∀ k, dset st k ≠ [] → ∀ q ∈ rem, patch ((dset st k).head?.getD 0) ≤ patch q.1
  big : ∀ k, dset st k ≠ [] → 2 ≤ (dset st k).length

theorem dset_lt {st : Store} {k d : Nat} (h : d ∈ dset st k) : ∃ s, st.out[k]? = some s ∧ s.dofs = dset st k := by
  unfold dset at *
  cases hk : st.out[k]? with
  | none => rw [hk] at h; simp at h
  | some s => exact ⟨s, rfl, rfl⟩

theorem dset_set (st : Store) (k j : Nat) (hk : k < st.out.length) (s : Ident) (f : Nat → Option Nat) :
    dset ⟨st.out.set k s, f⟩ j = if j = k then s.dofs else dset st j := by
  unfold dset
  simp only [List.getElem?_set]
  by_cases h : k = j
  · subst h; simp [hk]
  · rw [if_neg h, if_neg (fun h' => h h'.symm)]

theorem pushDof_eq {st : Store} {k d x : Nat} (hx : x ∈ dset st k) :
    ∃ st', pushDof st k d = some st' ∧ (∀ j, dset st' j = if j = k then dset st k ++ [d] else dset st j) ∧
      st'.stored = upd st.stored d (some k) ∧
      ((∀ s ∈ st.out, s.dofs ≠ [] → s.coef = 1) → ∀ s ∈ st'.out, s.dofs ≠ [] → s.coef = 1) := by
  obtain ⟨s, h1, h2⟩ := dset_lt hx
  have hk : k < st.out.length := (List.getElem?_eq_some_iff.1 h1).1
  refine ⟨⟨st.out.set k ⟨s.dofs ++ [d], s.coef⟩, upd st.stored d (some k)⟩, ?_, ?_, rfl, ?_⟩
  · unfold pushDof; rw [h1]; rfl
  · intro j
    rw [dset_set _ _ _ hk, h2]
  · intro h t ht hne
    rcases List.mem_or_eq_of_mem_set ht with h' | rfl
    · exact h t h' hne
    · exact h s (List.mem_of_getElem? h1) (by rw [h2]; exact List.ne_nil_of_mem hx)

theorem merge_foldl (ss : Nat) (l : List Nat) : ∀ (st : Store), ss < st.out.length → l.Nodup → dset st ss ≠ [] →
    (∀ x ∈ l, x ∉ dset st ss) →
    ∃ st', l.foldlM (mergeStep ss) st = some st' ∧ st'.out.length = st.out.length ∧
      (∀ j, dset st' j = if j = ss then dset st ss ++ l else dset st j) ∧
      (∀ d, st'.stored d = if d ∈ l then some ss else st.stored d) ∧
      ((∀ s ∈ st.out, s.dofs ≠ [] → s.coef = 1) → ∀ s ∈ st'.out, s.dofs ≠ [] → s.coef = 1) := by
  induction l with
  | nil =>
    intro st _ _ _ _
    refine ⟨st, rfl, rfl, ?_, ?_, fun h => h⟩
    · intro j
      split
      · subst_vars; simp
      · rfl
    · intro d; simp
  | cons x l ih =>
    intro st hlt hnd hne hni
    obtain ⟨s, hs⟩ : ∃ s, st.out[ss]? = some s := ⟨_, List.getElem?_eq_getElem hlt⟩
    have hsd : dset st ss = s.dofs := by unfold dset; rw [hs]; rfl
    have hstep : mergeStep ss st x = some ⟨st.out.set ss ⟨s.dofs ++ [x], s.coef⟩, upd st.stored x (some ss)⟩ := by
      unfold mergeStep
      rw [hs]
      simp only [Option.bind_eq_bind, Option.bind_some]
      rw [if_neg]
      rw [← hsd]
      exact hni x (List.mem_cons_self ..)
    rw [List.foldlM_cons, hstep]
    simp only [Option.bind_eq_bind, Option.bind_some]
    rw [List.nodup_cons] at hnd
    have hds := fun j => dset_set st ss j hlt ⟨s.dofs ++ [x], s.coef⟩ (upd st.stored x (some ss))
    obtain ⟨st', g1, g2, g3, g4, g5⟩ := ih ⟨st.out.set ss ⟨s.dofs ++ [x], s.coef⟩, upd st.stored x (some ss)⟩
      (by simpa using hlt) hnd.2 (by rw [hds, if_pos rfl]; simp) (by
        intro y hy
        rw [hds, if_pos rfl]
        simp only [List.mem_append, List.mem_singleton, not_or]
        refine ⟨by rw [← hsd]; exact hni y (List.mem_cons_of_mem _ hy), ?_⟩
        rintro rfl
        exact hnd.1 hy)
    refine ⟨st', g1, by simpa using g2, ?_, ?_, ?_⟩
    · intro j
      rw [g3, hds, hds, if_pos rfl, hsd]
      split
      · simp
      · rfl
    · intro d
      rw [g4]
      simp only [upd, List.mem_cons]
      by_cases h1 : d ∈ l
      · simp [h1]
      · by_cases h2 : d = x <;> simp [h1, h2]
    · intro h
      refine g5 ?_
      intro t ht htn
      rcases List.mem_or_eq_of_mem_set ht with h' | rfl
      · exact h t h' htn
      · exact h s (List.mem_of_getElem? hs) (hsd ▸ hne)

theorem mergeSets_eq {st : Store} {ss ls a b : Nat} (hne : ss ≠ ls) (ha : a ∈ dset st ss) (hb : b ∈ dset st ls)
    (hnd : (dset st ls).Nodup) (hdis : ∀ x ∈ dset st ls, x ∉ dset st ss) :
    ∃ st', mergeSets st ss ls = some st' ∧
      (∀ j, dset st' j = if j = ls then [] else if j = ss then dset st ss ++ dset st ls else dset st j) ∧
      (∀ d, st'.stored d = if d ∈ dset st ls then some ss else st.stored d) ∧
      ((∀ s ∈ st.out, s.dofs ≠ [] → s.coef = 1) → ∀ s ∈ st'.out, s.dofs ≠ [] → s.coef = 1) := by
  obtain ⟨l, h1, h2⟩ := dset_lt hb
  obtain ⟨s, h3, h4⟩ := dset_lt ha
  have hls : ls < st.out.length := (List.getElem?_eq_some_iff.1 h1).1
  have hss : ss < st.out.length := (List.getElem?_eq_some_iff.1 h3).1
  obtain ⟨st', g1, g2, g3, g4, g5⟩ := merge_foldl ss (dset st ls) st hss hnd (List.ne_nil_of_mem ha) hdis
  refine ⟨⟨st'.out.set ls ⟨[], 0⟩, st'.stored⟩, ?_, ?_, g4, ?_⟩
  · unfold mergeSets
    rw [h1]
    simp only [Option.bind_eq_bind, Option.bind_some, h2, g1]
  · intro j
    rw [dset_set _ _ _ (by omega)]
    by_cases h : j = ls
    · simp [h]
    · rw [if_neg h, if_neg h, g3]
  · intro h t ht htn
    rcases List.mem_or_eq_of_mem_set ht with h' | rfl
    · exact g5 h t h' htn
    · exact absurd rfl htn

/-- one step of the loop -/
theorem ustep (pre : Nat) (patch : Nat → Nat) (All : List (Nat × Nat)) (R rem : List (Nat × Nat)) (q : Nat × Nat)
    (hsub : ∀ p ∈ R, p ∈ All) (hq : q ∈ All)
    (hinj : ∀ d e, Chain All d e → patch d = patch e → d = e)
    (hlt : q.1 < pre ∧ q.2 < pre) (hpq : patch q.1 < patch q.2) (hsort : ∀ p ∈ rem, patch q.1 ≤ patch p.1)
    (st : Store) (I : UInv patch R (q :: rem) st) :
    ∃ st', identStep pre st q = some st' ∧ UInv patch (R ++ [q]) rem st' := by
  have hR : ∀ p ∈ R, p ∈ R ++ [q] := fun p h => List.mem_append_left _ h
  have hRA : ∀ p ∈ R ++ [q], p ∈ All := fun p h => by
    rcases List.mem_append.1 h with h | h
    · exact hsub p h
    · rw [List.mem_singleton.1 h]; exact hq
  have hqc : Chain (R ++ [q]) q.1 q.2 := EqvGen.rel _ _ (by simp)
  have hne : q.1 ≠ q.2 := fun h => by rw [h] at hpq; omega
  have hdisj : ∀ d j k, d ∈ dset st j → d ∈ dset st k → j = k := fun d j k h1 h2 => by
    have := ((I.stored d j).2 h1).symm.trans ((I.stored d k).2 h2)
    simpa using this
  have hrem : ∀ k, dset st k ≠ [] → ∀ p ∈ rem, patch ((dset st k).head?.getD 0) ≤ patch p.1 :=
    fun k h p hp => I.hle k h p (List.mem_cons_of_mem _ hp)
  have hcur : ∀ k, dset st k ≠ [] → patch ((dset st k).head?.getD 0) ≤ patch q.1 :=
    fun k h => I.hle k h q (List.mem_cons_self ..)
  have hhm : ∀ k, dset st k ≠ [] → (dset st k).head?.getD 0 ∈ dset st k := fun k h => by
    cases hk : dset st k with
    | nil => exact absurd hk h
    | cons a l => simp
  have happ : ∀ (l m : List Nat), l ≠ [] → (l ++ m).head?.getD 0 = l.head?.getD 0 := fun l m h => by
    cases l with
    | nil => exact absurd rfl h
    | cons a l => rfl
  have hdom : ∀ d, (∃ p ∈ R ++ [q], d = p.1 ∨ d = p.2) ↔ st.stored d ≠ none ∨ d = q.1 ∨ d = q.2 := by
    intro d
    rw [I.dom]
    simp only [List.mem_append, List.mem_singleton]
    constructor
    · rintro ⟨p, h | rfl, h'⟩
      · exact Or.inl ⟨p, h, h'⟩
      · exact Or.inr h'
    · rintro (⟨p, h, h'⟩ | h)
      · exact ⟨p, Or.inl h, h'⟩
      · exact ⟨q, Or.inr rfl, h⟩
  unfold identStep
  rw [if_neg (by omega)]
  -- pushing `d` to the set `k` that contains its partner `c`
  have push : ∀ c d k, st.stored c = some k → st.stored d = none → (c = q.1 ∧ d = q.2 ∨ c = q.2 ∧ d = q.1) →
      ∃ st', pushDof st k d = some st' ∧ UInv patch (R ++ [q]) rem st' := by
    intro c d k hc hd hcd
    have hck := (I.stored c k).1 hc
    have hkne : dset st k ≠ [] := List.ne_nil_of_mem hck
    obtain ⟨st', g1, g2, g3, g4⟩ := pushDof_eq (d := d) hck
    have hdn : ∀ j, d ∉ dset st j := fun j h => by
      have := (I.stored d j).2 h
      rw [hd] at this; simp at this
    have hchain : Chain (R ++ [q]) c d := by
      rcases hcd with ⟨rfl, rfl⟩ | ⟨rfl, rfl⟩
      · exact hqc
      · exact EqvGen.symm _ _ hqc
    have hst' : ∀ e, st'.stored e = if e = d then some k else st.stored e := by intro e; rw [g3]; rfl
    have hcsame : ∀ e, st.stored e = some k → Chain (R ++ [q]) e d := fun e he =>
      EqvGen.trans _ _ _ ((I.sound e c k he hc).mono hR) hchain
    have hhead : ∀ j, (dset st' j).head?.getD 0 = (dset st j).head?.getD 0 := by
      intro j
      rw [g2]
      split
      · rename_i h; rw [happ _ _ hkne, h]
      · rfl
    have hnil : ∀ j, dset st' j ≠ [] → dset st j ≠ [] := by
      intro j
      rw [g2]
      split
      · rename_i h; rw [h]; exact fun _ => hkne
      · exact id
    refine ⟨st', g1, ?_, ?_, ?_, ?_, ?_, g4 I.coef, ?_, ?_, ?_, ?_⟩
    · intro e j
      rw [hst', g2]
      by_cases he : e = d
      · subst he
        rw [if_pos rfl]
        by_cases hj : j = k
        · simp [hj]
        · rw [if_neg hj]
          exact ⟨fun h => absurd (Option.some.inj h).symm hj, fun h => absurd h (hdn j)⟩
      · rw [if_neg he, I.stored]
        by_cases hj : j = k
        · subst hj; simp [he]
        · rw [if_neg hj]
    · intro j
      rw [g2]
      split
      · rw [List.nodup_append]
        refine ⟨I.nodup k, by simp, ?_⟩
        intro a ha b hb
        rw [List.mem_singleton] at hb
        subst hb
        rintro rfl
        exact hdn k ha
      · exact I.nodup j
    · intro e
      rw [hdom, hst']
      by_cases he : e = d
      · subst he
        rcases hcd with ⟨-, h⟩ | ⟨-, h⟩ <;> simp [h]
      · rw [if_neg he]
        refine ⟨Or.inl, ?_⟩
        rintro (h | h)
        · exact h
        · have : e = c := by
            rcases hcd with ⟨h1, h2⟩ | ⟨h1, h2⟩ <;> rcases h with h | h <;> first | exact h.trans h1.symm | exact absurd (h.trans h2.symm) he
          rw [this, hc]; simp
    · intro e f j he hf
      rw [hst'] at he hf
      by_cases h1 : e = d <;> by_cases h2 : f = d
      · rw [h1, h2]; exact EqvGen.refl _
      · rw [if_pos h1] at he
        rw [if_neg h2] at hf
        rw [h1]
        exact EqvGen.symm _ _ (hcsame f (hf.trans he.symm))
      · rw [if_neg h1] at he
        rw [if_pos h2] at hf
        rw [h2]
        exact hcsame e (he.trans hf.symm)
      · rw [if_neg h1] at he
        rw [if_neg h2] at hf
        exact (I.sound e f j he hf).mono hR
    · intro p hp
      rcases List.mem_append.1 hp with h | h
      · have h1 : p.1 ≠ d := fun h' => (I.dom d).2 ⟨p, h, Or.inl h'.symm⟩ hd
        have h2 : p.2 ≠ d := fun h' => (I.dom d).2 ⟨p, h, Or.inr h'.symm⟩ hd
        rw [hst', hst', if_neg h1, if_neg h2]
        exact I.compl p h
      · rw [List.mem_singleton.1 h]
        have : c ≠ d := fun h' => by rw [h', hd] at hc; simp at hc
        rcases hcd with ⟨h1, h2⟩ | ⟨h1, h2⟩
        · rw [← h1, ← h2, hst', hst', if_neg this, if_pos rfl, hc]
        · rw [← h1, ← h2, hst', hst', if_neg this, if_pos rfl, hc]
    · intro j x hx
      rw [hhead]
      rw [g2] at hx
      by_cases hj : j = k
      · rw [if_pos hj, List.mem_append, List.mem_singleton] at hx
        rcases hx with hx | hx
        · rw [hj]; exact I.hmin k x hx
        · right
          rw [hx, hj]
          have h1 : patch ((dset st k).head?.getD 0) ≤ patch q.1 := hcur k hkne
          rcases hcd with ⟨h2, h3⟩ | ⟨h2, h3⟩
          · rw [h3]; omega
          · rcases Nat.lt_or_ge (patch ((dset st k).head?.getD 0)) (patch d) with h | h
            · exact h
            · exfalso
              rw [h3] at h
              have h5 := hcsame _ ((I.stored _ k).2 (hhm k hkne))
              have h6 := hinj _ _ (h5.mono hRA) (by rw [h3]; omega)
              exact hdn k (h6 ▸ hhm k hkne)
      · rw [if_neg hj] at hx
        exact I.hmin j x hx
    · intro j m hjm h1 h2
      rw [hhead, hhead]
      exact I.hmono j m hjm (hnil j h1) (hnil m h2)
    · intro j h1 p hp
      rw [hhead]
      exact hrem j (hnil j h1) p hp
    · intro j h1
      have := I.big j (hnil j h1)
      rw [g2]
      split
      · rename_i h
        rw [List.length_append, ← h]; omega
      · exact this
  cases h1 : st.stored q.1 with
  | some k =>
    cases h2 : st.stored q.2 with
    | none => exact push q.1 q.2 k h1 h2 (Or.inl ⟨rfl, rfl⟩)
    | some m =>
      simp only
      by_cases hkm : k = m
      · rw [if_pos hkm]
        refine ⟨st, rfl, I.stored, I.nodup, ?_, fun d e k h h' => (I.sound d e k h h').mono hR, ?_, I.coef, I.hmin, I.hmono,
          hrem, I.big⟩
        · intro d
          rw [hdom]
          refine ⟨Or.inl, ?_⟩
          rintro (h | rfl | rfl)
          · exact h
          · rw [h1]; simp
          · rw [h2]; simp
        · intro p hp
          rcases List.mem_append.1 hp with h | h
          · exact I.compl p h
          · rw [List.mem_singleton.1 h, h1, h2, hkm]
      · rw [if_neg hkm]
        -- merge
        obtain ⟨ss, ls, hss, hls, hlt', a, b, ha, hb, hab⟩ : ∃ ss ls, ss = min k m ∧ ls = max k m ∧ ss < ls ∧
            ∃ a b, st.stored a = some ss ∧ st.stored b = some ls ∧ Chain (R ++ [q]) a b := by
          rcases Nat.lt_or_gt_of_ne hkm with h | h
          · exact ⟨k, m, by omega, by omega, h, q.1, q.2, h1, h2, hqc⟩
          · exact ⟨m, k, by omega, by omega, h, q.2, q.1, h2, h1, EqvGen.symm _ _ hqc⟩
        rw [← hss, ← hls]
        have ham := (I.stored a ss).1 ha
        have hbm := (I.stored b ls).1 hb
        have hsne := List.ne_nil_of_mem ham
        have hlne := List.ne_nil_of_mem hbm
        obtain ⟨st', g1, g2, g3, g4⟩ := mergeSets_eq (by omega) ham hbm (I.nodup ls)
          (fun x hx hx' => by have := hdisj x _ _ hx hx'; omega)
        have hcross : ∀ e f, st.stored e = some ss → st.stored f = some ls → Chain (R ++ [q]) e f := fun e f he hf =>
          EqvGen.trans _ _ _ ((I.sound e a ss he ha).mono hR)
            (EqvGen.trans _ _ _ hab ((I.sound b f ls hb hf).mono hR))
        have hst' : ∀ e, st'.stored e = if st.stored e = some ls then some ss else st.stored e := by
          intro e
          rw [g3]
          exact if_congr (I.stored e ls).symm rfl rfl
        have hhead : ∀ j, dset st' j ≠ [] → dset st j ≠ [] ∧ (dset st' j).head?.getD 0 = (dset st j).head?.getD 0 := by
          intro j
          rw [g2]
          by_cases hj : j = ls
          · simp [hj]
          · rw [if_neg hj]
            by_cases hj' : j = ss
            · rw [if_pos hj', hj']
              exact fun _ => ⟨hsne, happ _ _ hsne⟩
            · rw [if_neg hj']
              exact fun h => ⟨h, rfl⟩
        refine ⟨st', g1, ?_, ?_, ?_, ?_, ?_, g4 I.coef, ?_, ?_, ?_, ?_⟩
        · intro e j
          rw [hst', g2]
          by_cases he : st.stored e = some ls
          · rw [if_pos he]
            by_cases hj : j = ls
            · rw [if_pos hj]; simp only [Option.some.injEq, List.not_mem_nil, iff_false]; omega
            · rw [if_neg hj]
              by_cases hj' : j = ss
              · rw [if_pos hj', hj']
                simp only [true_iff, List.mem_append]
                exact Or.inr ((I.stored e ls).1 he)
              · rw [if_neg hj']
                constructor
                · intro h; exact absurd (Option.some.inj h).symm hj'
                · intro h; exact absurd (hdisj e j ls h ((I.stored e ls).1 he)) hj
          · rw [if_neg he, I.stored]
            have he' : e ∉ dset st ls := fun h => he ((I.stored e ls).2 h)
            by_cases hj : j = ls
            · rw [if_pos hj, hj]; simp [he']
            · rw [if_neg hj]
              by_cases hj' : j = ss
              · rw [if_pos hj', hj']; simp [he']
              · rw [if_neg hj']
        · intro j
          rw [g2]
          split
          · simp
          · split
            · rw [List.nodup_append]
              refine ⟨I.nodup ss, I.nodup ls, ?_⟩
              rintro x hx y hy rfl
              have := hdisj x _ _ hx hy
              omega
            · exact I.nodup j
        · intro e
          rw [hdom, hst']
          constructor
          · intro h
            left
            split at h
            · rename_i h'; rw [h']; simp
            · exact h
          · intro h
            split
            · simp
            · rcases h with h | rfl | rfl
              · exact h
              · rw [h1]; simp
              · rw [h2]; simp
        · intro e f j he hf
          rw [hst'] at he hf
          by_cases h3 : st.stored e = some ls <;> by_cases h4 : st.stored f = some ls
          · exact (I.sound e f ls h3 h4).mono hR
          · rw [if_pos h3] at he
            rw [if_neg h4] at hf
            exact EqvGen.symm _ _ (hcross f e (hf.trans he.symm) h3)
          · rw [if_neg h3] at he
            rw [if_pos h4] at hf
            exact hcross e f (he.trans hf.symm) h4
          · rw [if_neg h3] at he
            rw [if_neg h4] at hf
            exact (I.sound e f j he hf).mono hR
        · intro p hp
          rcases List.mem_append.1 hp with h | h
          · rw [hst', hst', I.compl p h]
          · rw [List.mem_singleton.1 h, hst', hst', h1, h2]
            rcases Nat.lt_or_gt_of_ne hkm with h | h
            · have e1 : ss = k := by omega
              have e2 : ls = m := by omega
              rw [e1, e2, if_neg (by simpa using hkm), if_pos rfl]
            · have e1 : ss = m := by omega
              have e2 : ls = k := by omega
              rw [e1, e2, if_pos rfl, if_neg (by simpa using fun h : m = k => hkm h.symm)]
        · intro j x hx
          have hj := hhead j (List.ne_nil_of_mem hx)
          rw [hj.2]
          rw [g2] at hx
          by_cases hjl : j = ls
          · rw [if_pos hjl] at hx; simp at hx
          · rw [if_neg hjl] at hx
            by_cases hjs : j = ss
            · rw [if_pos hjs, List.mem_append] at hx
              rw [hjs]
              rcases hx with hx | hx
              · exact I.hmin ss x hx
              · right
                have h3 : patch ((dset st ls).head?.getD 0) ≤ patch x := by
                  rcases I.hmin ls x hx with h | h
                  · rw [← h]
                  · omega
                have h4 := I.hmono ss ls (by omega) hsne hlne
                rcases Nat.lt_or_ge (patch ((dset st ss).head?.getD 0)) (patch x) with h | h
                · exact h
                · exfalso
                  have hx' := (I.stored x ls).2 hx
                  have hh' := (I.stored _ ss).2 (hhm ss hsne)
                  have h5 := hinj _ _ ((hcross _ _ hh' hx').mono hRA) (by omega)
                  rw [h5, hx'] at hh'
                  have := Option.some.inj hh'
                  omega
            · rw [if_neg hjs] at hx
              exact I.hmin j x hx
        · intro j m' hjm h3 h4
          obtain ⟨h5, h6⟩ := hhead j h3
          obtain ⟨h7, h8⟩ := hhead m' h4
          rw [h6, h8]
          exact I.hmono j m' hjm h5 h7
        · intro j h3 p hp
          obtain ⟨h5, h6⟩ := hhead j h3
          rw [h6]
          exact hrem j h5 p hp
        · intro j h3
          have h5 := I.big j (hhead j h3).1
          rw [g2] at h3 ⊢
          by_cases hj : j = ls
          · rw [if_pos hj] at h3; exact absurd rfl h3
          · rw [if_neg hj]
            split
            · rename_i hjs
              rw [List.length_append, ← hjs]; omega
            · exact h5
  | none =>
    cases h2 : st.stored q.2 with
    | some m => exact push q.2 q.1 m h2 h1 (Or.inr ⟨rfl, rfl⟩)
    | none =>
      simp only
      have hempty : ∀ j, st.out.length ≤ j → dset st j = [] := by
        intro j hj
        unfold dset
        rw [List.getElem?_eq_none hj]; rfl
      have hd1 : ∀ j, q.1 ∉ dset st j := fun j h => by
        have := (I.stored _ j).2 h
        rw [h1] at this; simp at this
      have hd2 : ∀ j, q.2 ∉ dset st j := fun j h => by
        have := (I.stored _ j).2 h
        rw [h2] at this; simp at this
      set L := st.out.length with hL
      have g2 : ∀ j, dset ⟨st.out ++ [⟨[q.1, q.2], 1⟩], upd (upd st.stored q.1 (some L)) q.2 (some L)⟩ j =
          if j = L then [q.1, q.2] else dset st j := by
        intro j
        by_cases hj : j = L
        · rw [if_pos hj, hj]
          unfold dset
          simp [hL]
        · rw [if_neg hj]
          unfold dset
          rcases Nat.lt_or_ge j L with h | h
          · simp only; rw [List.getElem?_append_left h]
          · simp only
            rw [List.getElem?_eq_none (by simp; omega), List.getElem?_eq_none (by omega)]
      have hst' : ∀ e, upd (upd st.stored q.1 (some L)) q.2 (some L) e =
          if e = q.1 ∨ e = q.2 then some L else st.stored e := by
        intro e
        unfold upd
        by_cases h3 : e = q.2
        · simp [h3]
        · by_cases h4 : e = q.1 <;> simp [h3, h4]
      have hLs : ∀ e, st.stored e ≠ some L := fun e h => by
        have := (I.stored e L).1 h
        rw [hempty L le_rfl] at this
        simp at this
      have hb : ∀ e f, e = q.1 ∨ e = q.2 → f = q.1 ∨ f = q.2 → Chain (R ++ [q]) e f := by
        rintro e f (rfl | rfl) (rfl | rfl)
        · exact EqvGen.refl _
        · exact hqc
        · exact EqvGen.symm _ _ hqc
        · exact EqvGen.refl _
      refine ⟨_, rfl, ?_, ?_, ?_, ?_, ?_, ?_, ?_, ?_, ?_, ?_⟩
      · intro e j
        rw [g2]
        simp only
        rw [hst']
        by_cases he : e = q.1 ∨ e = q.2
        · rw [if_pos he]
          by_cases hj : j = L
          · rw [if_pos hj]
            simp only [hj, List.mem_cons, List.not_mem_nil, or_false, true_iff]
            exact he
          · rw [if_neg hj]
            constructor
            · intro h; exact absurd (Option.some.inj h).symm hj
            · rcases he with rfl | rfl
              · exact fun h => absurd h (hd1 j)
              · exact fun h => absurd h (hd2 j)
        · rw [if_neg he, I.stored]
          by_cases hj : j = L
          · rw [if_pos hj, hj, hempty L le_rfl]
            simpa using he
          · rw [if_neg hj]
      · intro j
        rw [g2]
        split
        · simpa using hne
        · exact I.nodup j
      · intro e
        rw [hdom]
        simp only
        rw [hst']
        by_cases he : e = q.1 ∨ e = q.2
        · simp [he]
        · simp [he]
      · intro e f j he hf
        simp only at he hf
        rw [hst'] at he hf
        by_cases h3 : e = q.1 ∨ e = q.2 <;> by_cases h4 : f = q.1 ∨ f = q.2
        · exact hb e f h3 h4
        · rw [if_pos h3] at he
          rw [if_neg h4] at hf
          exact absurd (hf.trans he.symm) (hLs f)
        · rw [if_neg h3] at he
          rw [if_pos h4] at hf
          exact absurd (he.trans hf.symm) (hLs e)
        · rw [if_neg h3] at he
          rw [if_neg h4] at hf
          exact (I.sound e f j he hf).mono hR
      · intro p hp
        simp only
        rcases List.mem_append.1 hp with h | h
        · have hx : ∀ x, x = p.1 ∨ x = p.2 → ¬(x = q.1 ∨ x = q.2) := by
            intro x hx
            have := (I.dom x).2 ⟨p, h, hx⟩
            rintro (rfl | rfl)
            · exact this h1
            · exact this h2
          rw [hst', hst', if_neg (hx _ (Or.inl rfl)), if_neg (hx _ (Or.inr rfl))]
          exact I.compl p h
        · rw [List.mem_singleton.1 h, hst', hst', if_pos (Or.inl rfl), if_pos (Or.inr rfl)]
      · intro s hs hsn
        rcases List.mem_append.1 hs with h | h
        · exact I.coef s h hsn
        · rw [List.mem_singleton.1 h]
      · intro j x hx
        rw [g2] at hx ⊢
        split at hx
        · rename_i hj
          rw [if_pos hj]
          simp only [List.mem_cons, List.not_mem_nil, or_false] at hx
          rcases hx with rfl | rfl
          · left; rfl
          · right; exact hpq
        · rename_i hj
          rw [if_neg hj]
          exact I.hmin j x hx
      · intro j m hjm h3 h4
        rw [g2] at h3 h4 ⊢
        rw [g2]
        by_cases hm : m = L
        · rw [if_pos hm]
          by_cases hj : j = L
          · rw [if_pos hj]
          · rw [if_neg hj] at h3 ⊢
            exact hcur j h3
        · rw [if_neg hm] at h4 ⊢
          by_cases hj : j = L
          · exact absurd (hempty m (by omega)) h4
          · rw [if_neg hj] at h3 ⊢
            exact I.hmono j m hjm h3 h4
      · intro j h3 p hp
        rw [g2] at h3 ⊢
        by_cases hj : j = L
        · rw [if_pos hj]
          exact hsort p hp
        · rw [if_neg hj] at h3 ⊢
          exact hrem j h3 p hp
      · intro j h3
        rw [g2] at h3 ⊢
        by_cases hj : j = L
        · rw [if_pos hj]; simp
        · rw [if_neg hj] at h3 ⊢
          exact I.big j h3

/-- the whole loop -/
theorem ufold (pre : Nat) (patch : Nat → Nat) (All : List (Nat × Nat))
    (hinj : ∀ d e, Chain All d e → patch d = patch e → d = e)
    (hlt : ∀ q ∈ All, q.1 < pre ∧ q.2 < pre) (hpq : ∀ q ∈ All, patch q.1 < patch q.2)
    (hsort : All.Pairwise fun p q => patch p.1 ≤ patch q.1) :
    ∃ st, All.foldlM (identStep pre) ⟨[], fun _ => none⟩ = some st ∧ UInv patch All [] st := by
  have main : ∀ (rem R : List (Nat × Nat)) (st : Store), R ++ rem = All → UInv patch R rem st →
      ∃ st', rem.foldlM (identStep pre) st = some st' ∧ UInv patch All [] st' := by
    intro rem
    induction rem with
    | nil =>
      intro R st h I
      rw [List.append_nil] at h
      subst h
      exact ⟨st, rfl, I⟩
    | cons q rem ih =>
      intro R st h I
      have hmem : ∀ p ∈ q :: rem, p ∈ All := fun p hp => h ▸ List.mem_append_right _ hp
      have hs : ∀ p ∈ rem, patch q.1 ≤ patch p.1 := by
        have h1 : (q :: rem).Pairwise fun p q => patch p.1 ≤ patch q.1 := by
          have := h ▸ hsort
          rw [List.pairwise_append] at this
          exact this.2.1
        exact (List.pairwise_cons.1 h1).1
      obtain ⟨st1, g1, g2⟩ := ustep pre patch All R rem q (fun p hp => h ▸ List.mem_append_left _ hp)
        (hmem q (List.mem_cons_self ..)) hinj (hlt q (hmem q (List.mem_cons_self ..)))
        (hpq q (hmem q (List.mem_cons_self ..))) hs st I
      obtain ⟨st', g3, g4⟩ := ih (R ++ [q]) st1 (by rw [← h]; simp) g2
      exact ⟨st', by rw [List.foldlM_cons, g1]; exact g3, g4⟩
  refine main All [] _ rfl ?_
  have e : ∀ j, dset ⟨[], fun _ => none⟩ j = [] := fun j => rfl
  refine ⟨?_, ?_, ?_, ?_, ?_, ?_, ?_, ?_, ?_, ?_⟩
  all_goals simp [e]

end Glue
end Bembel
