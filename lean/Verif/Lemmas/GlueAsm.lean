import Verif.Model.Glue
import Mathlib.Data.List.Perm.Subperm
import Mathlib.Data.List.Perm.Lattice
import Mathlib.Data.List.Nodup
import Mathlib.Algebra.BigOperators.Group.List.Basic
/-!
# Lemmas on `assembleGlueMatrix`
-/

namespace Bembel
namespace Glue

open Basis

/-- first dof -/
def hd (d : Ident) : Nat := d.dofs.head?.getD 0

/-- Input condition of `assembleGlueMatrix`. -/
structure GoodIds (pre : Nat) (ids : List Ident) : Prop where
  ne : ∀ d ∈ ids, d.dofs ≠ []
  nodup : ∀ d ∈ ids, d.dofs.Nodup
  lt : ∀ d ∈ ids, ∀ x ∈ d.dofs, x < pre
  min : ∀ d ∈ ids, ∀ x ∈ d.dofs, hd d ≤ x
  disj : ids.Pairwise fun a b => ∀ x ∈ a.dofs, x ∉ b.dofs

theorem hd_cons {d : Ident} (h : d.dofs ≠ []) : d.dofs = hd d :: d.dofs.tail := by
  unfold hd
  cases hh : d.dofs with
  | nil => exact absurd hh h
  | cons a l => rfl

theorem foldl_upd_true (l : List Nat) (f : Nat → Bool) (x : Nat) :
    (l.foldl (fun f r => upd f r true) f) x = (f x || decide (x ∈ l)) := by
  induction l generalizing f with
  | nil => simp
  | cons a l ih =>
    rw [List.foldl_cons, ih]
    unfold upd
    by_cases h : x = a
    · simp [h]
    · simp [h]

theorem sorted_min {d : Ident} (hne : d.dofs ≠ []) (hmin : ∀ x ∈ d.dofs, hd d ≤ x) :
    ∃ rest, d.dofs.insertionSort (· ≤ ·) = hd d :: rest ∧ rest.Perm d.dofs.tail := by
  have hp := List.perm_insertionSort (· ≤ ·) d.dofs
  have hs := List.pairwise_insertionSort (· ≤ ·) d.dofs
  cases hh : d.dofs.insertionSort (· ≤ ·) with
  | nil =>
    rw [hh] at hp
    exact absurd hp.symm.eq_nil hne
  | cons m rest =>
    rw [hh] at hp hs
    have h1 : hd d ∈ m :: rest := hp.symm.subset (by rw [hd_cons hne]; exact List.mem_cons_self ..)
    have h2 : hd d ≤ m := hmin _ (hp.subset (List.mem_cons_self ..))
    have h3 : m ≤ hd d := by
      rcases List.mem_cons.1 h1 with h | h
      · omega
      · exact (List.pairwise_cons.1 hs).1 _ h
    obtain rfl : m = hd d := by omega
    refine ⟨rest, rfl, ?_⟩
    rw [hd_cons hne] at hp
    exact hp.cons_inv

/-- result of the marking loop -/
theorem mark_foldl (pre : Nat) (ids : List Ident) (hne : ∀ d ∈ ids, d.dofs ≠ [])
    (hlt : ∀ d ∈ ids, ∀ x ∈ d.dofs, x < pre) (hmin : ∀ d ∈ ids, ∀ x ∈ d.dofs, hd d ≤ x)
    (st : (Nat → Bool) × (Nat → Bool) × Nat) :
    ids.foldlM (markStep pre) st = some ((fun x => st.1 x || decide (x ∈ ids.map hd)),
      (fun x => st.2.1 x || decide (x ∈ ids.flatMap fun d => d.dofs.tail)),
      st.2.2 + (ids.map fun d => d.dofs.tail.length).sum) := by
  induction ids generalizing st with
  | nil => simp
  | cons d ids ih =>
    obtain ⟨rest, h1, h2⟩ := sorted_min (hne d (List.mem_cons_self ..)) (hmin d (List.mem_cons_self ..))
    have hm : hd d < pre := hlt d (List.mem_cons_self ..) _ (by
      rw [hd_cons (hne d (List.mem_cons_self ..))]; exact List.mem_cons_self ..)
    have hr : ∀ r ∈ rest, r < pre := fun r hr =>
      hlt d (List.mem_cons_self ..) r (List.mem_of_mem_tail (h2.subset hr))
    have hstep : markStep pre st d = some (upd st.1 (hd d) true,
        rest.foldl (fun f r => upd f r true) st.2.1, st.2.2 + rest.length) := by
      unfold markStep
      rw [h1]
      simp only
      rw [if_neg]
      rintro (h | ⟨r, h, h'⟩)
      · omega
      · exact absurd (hr r h) (by omega)
    rw [List.foldlM_cons, hstep]
    simp only [Option.bind_eq_bind, Option.bind_some]
    rw [ih (fun e he => hne e (List.mem_cons_of_mem _ he)) (fun e he => hlt e (List.mem_cons_of_mem _ he))
      (fun e he => hmin e (List.mem_cons_of_mem _ he))]
    congr 1
    refine Prod.ext ?_ (Prod.ext ?_ ?_)
    · funext x
      simp only [upd, List.map_cons, List.mem_cons]
      by_cases hx : x = hd d <;> simp [hx]
    · funext x
      simp only [foldl_upd_true, List.flatMap_cons, List.mem_append, h2.mem_iff, Bool.decide_or, Bool.or_assoc]
    · simp only [List.map_cons, List.sum_cons, h2.length_eq]; omega

/-! ## the skip loop -/

theorem skipLoop_eq (slave : Nat → Bool) (pre : Nat) : ∀ (k s x : Nat) (tl : List Nat), s + k = pre →
    (List.range' s k).filter (fun y => !slave y) = x :: tl →
    (∀ fuel, k ≤ fuel → skipLoop slave pre fuel s = some x) ∧ s ≤ x ∧ x < pre ∧
      tl = (List.range' (x + 1) (pre - (x + 1))).filter (fun y => !slave y) := by
  intro k
  induction k with
  | zero => intro s x tl _ h; simp at h
  | succ k ih =>
    intro s x tl hk h
    rw [List.range'_succ, List.filter_cons] at h
    by_cases hs : slave s = true
    · rw [hs] at h
      simp only [Bool.not_true, Bool.false_eq_true, if_false] at h
      obtain ⟨h1, h2, h3, h4⟩ := ih (s + 1) x tl (by omega) h
      refine ⟨?_, by omega, h3, h4⟩
      intro fuel hf
      cases fuel with
      | zero => omega
      | succ fuel =>
        rw [skipLoop, if_pos (by omega), if_pos hs]
        exact h1 fuel (by omega)
    · simp only [Bool.not_eq_true] at hs
      rw [hs] at h
      simp only [Bool.not_false, if_true, List.cons.injEq] at h
      obtain ⟨rfl, h⟩ := h
      refine ⟨?_, le_rfl, by omega, ?_⟩
      · intro fuel hf
        cases fuel with
        | zero => omega
        | succ fuel =>
          rw [skipLoop, if_pos (by omega), if_neg (by simp [hs])]
      · rw [← h]
        congr 2
        omega

/-- entries of column `i` with representative `x` -/
def colEntries (ids : List Ident) (x i : Nat) : List (Nat × Nat × Int) :=
  (x, i, (1 : Int)) :: (ids.filter fun d => hd d = x).flatMap fun d => d.dofs.tail.map fun r => (r, i, d.coef)

theorem filter_hd {ids : List Ident} (hn : (ids.map hd).Nodup) {d : Ident} (hd' : d ∈ ids) :
    ids.filter (fun e => hd e = hd d) = [d] := by
  induction ids with
  | nil => simp at hd'
  | cons e ids ih =>
    rw [List.map_cons, List.nodup_cons] at hn
    rw [List.filter_cons]
    rcases List.mem_cons.1 hd' with h | h
    · subst h
      rw [if_pos (by simp)]
      congr 1
      rw [List.filter_eq_nil_iff]
      intro e he h
      simp only [decide_eq_true_eq] at h
      exact hn.1 (h ▸ List.mem_map_of_mem he)
    · rw [if_neg, ih hn.2 h]
      simp only [decide_eq_true_eq]
      intro h'
      exact hn.1 (h' ▸ List.mem_map_of_mem h)

/-- the main loop -/
theorem asm_foldl (master slave : Nat → Bool) (pre : Nat) (ids : List Ident) (hne : ∀ d ∈ ids, d.dofs ≠ [])
    (hn : (ids.map hd).Nodup) (hms : ∀ x, master x = true → slave x = false) :
    ∀ (k i : Nat) (st : AsmState) (rest : List Nat), rest.length = k → i + st.skip ≤ pre →
      (List.range' (i + st.skip) (pre - (i + st.skip))).filter (fun y => !slave y) = rest →
      (ids.drop st.mi).map hd = rest.filter master →
      (∀ x ∈ rest, master x = decide (x ∈ ids.map hd)) →
      ∃ st', (List.range' i k).foldlM (asmStep master slave pre ids) st = some st' ∧
        st'.trips = st.trips ++ (rest.zipIdx i).flatMap (fun q => colEntries ids q.1 q.2) ∧
        st'.trips.length = st.trips.length + rest.length +
          ((ids.drop st.mi).map fun d => d.dofs.tail.length).sum := by
  intro k
  induction k with
  | zero =>
    intro i st rest hl _ _ hr _
    obtain rfl := List.length_eq_zero_iff.1 hl
    refine ⟨st, by simp, by simp, ?_⟩
    have : ids.drop st.mi = [] := by simpa using hr
    simp [this]
  | succ k ih =>
    intro i st rest hl hle hr hm hmm
    cases rest with
    | nil => simp at hl
    | cons x tl =>
      obtain ⟨h1, h2, h3, h4⟩ := skipLoop_eq slave pre _ (i + st.skip) x tl (by omega) hr
      have hx : i + 1 + (x - i) = x + 1 := by omega
      rw [List.range'_succ, List.foldlM_cons]
      have hsl : slave x = false := by
        have : x ∈ (List.range' (i + st.skip) (pre - (i + st.skip))).filter (fun y => !slave y) := by
          rw [hr]; exact List.mem_cons_self ..
        simpa using (List.mem_filter.1 this).2
      by_cases hmx : master x = true
      · rw [List.filter_cons, if_pos hmx] at hm
        cases hdr : ids.drop st.mi with
        | nil => rw [hdr] at hm; simp at hm
        | cons d ds =>
          rw [hdr, List.map_cons, List.cons.injEq] at hm
          have hget : ids[st.mi]? = some d := by
            have := List.getElem?_drop (xs := ids) (i := st.mi) (j := 0)
            rw [hdr] at this
            simpa using this.symm
          have hdm : d ∈ ids := List.mem_of_getElem? hget
          have hhead : d.dofs.head? = some x := by
            rw [hd_cons (hne d hdm), hm.1]; rfl
          have hds : ids.drop (st.mi + 1) = ds := by
            rw [← List.drop_drop, hdr]; rfl
          have hstep : asmStep master slave pre ids st i =
              some ⟨st.trips ++ [(x, i, 1)] ++ d.dofs.tail.map (fun r => (r, i, d.coef)), x - i, st.mi + 1⟩ := by
            unfold asmStep
            rw [h1 _ (by omega)]
            simp only [Option.bind_eq_bind, Option.bind_some, hmx, hsl, Bool.and_false, Bool.false_eq_true, if_false,
              if_true, hget, hhead, ne_eq, not_true_eq_false]
          rw [hstep]
          simp only [Option.bind_eq_bind, Option.bind_some]
          obtain ⟨st', g1, g2, g3⟩ := ih (i + 1)
            ⟨st.trips ++ [(x, i, 1)] ++ d.dofs.tail.map (fun r => (r, i, d.coef)), x - i, st.mi + 1⟩ tl (by simpa using hl)
            (by simp only; omega) (by simp only; rw [hx]; exact h4.symm) (by simp only; rw [hds]; exact hm.2)
            (fun y hy => hmm y (List.mem_cons_of_mem _ hy))
          refine ⟨st', g1, ?_, ?_⟩
          · rw [g2, List.zipIdx_cons, List.flatMap_cons, colEntries]
            have : ids.filter (fun e => hd e = x) = [d] := by rw [← hm.1]; exact filter_hd hn hdm
            simp [this, List.append_assoc]
          · rw [g3]
            simp only [hds, List.length_append, List.length_map, List.length_cons, List.length_nil, List.map_cons,
              List.sum_cons]
            omega
      · rw [List.filter_cons, if_neg hmx] at hm
        have hmx' : master x = false := by simpa using hmx
        have hstep : asmStep master slave pre ids st i = some ⟨st.trips ++ [(x, i, 1)], x - i, st.mi⟩ := by
          unfold asmStep
          rw [h1 _ (by omega)]
          simp only [Option.bind_eq_bind, Option.bind_some, hmx', hsl, Bool.and_false, Bool.false_eq_true, if_false]
        rw [hstep]
        simp only [Option.bind_eq_bind, Option.bind_some]
        obtain ⟨st', g1, g2, g3⟩ := ih (i + 1) ⟨st.trips ++ [(x, i, 1)], x - i, st.mi⟩ tl (by simpa using hl)
          (by simp only; omega) (by simp only; rw [hx]; exact h4.symm) hm
          (fun y hy => hmm y (List.mem_cons_of_mem _ hy))
        refine ⟨st', g1, ?_, ?_⟩
        · rw [g2, List.zipIdx_cons, List.flatMap_cons, colEntries]
          have : ids.filter (fun e => hd e = x) = [] := by
            rw [List.filter_eq_nil_iff]
            intro e he h
            simp only [decide_eq_true_eq] at h
            have := hmm x (List.mem_cons_self ..)
            rw [hmx'] at this
            simp only [false_eq_decide_iff] at this
            exact this (h ▸ List.mem_map_of_mem he)
          simp [this, List.append_assoc]
        · rw [g3]
          simp only [List.length_append, List.length_cons, List.length_nil]
          omega

theorem disj_iff {ids : List Ident} (h : ids.Pairwise fun a b => ∀ x ∈ a.dofs, x ∉ b.dofs) {a b : Ident}
    (ha : a ∈ ids) (hb : b ∈ ids) {x : Nat} (hxa : x ∈ a.dofs) (hxb : x ∈ b.dofs) : a = b := by
  by_contra hab
  rcases List.pairwise_iff_getElem.1 h with h
  obtain ⟨i, hi, rfl⟩ := List.getElem_of_mem ha
  obtain ⟨j, hj, rfl⟩ := List.getElem_of_mem hb
  rcases Nat.lt_trichotomy i j with hij | rfl | hij
  · exact h i j hi hj hij x hxa hxb
  · exact hab rfl
  · exact h j i hj hi hij x hxb hxa

theorem eq_of_sorted_mem {l m : List Nat} (hl : l.Pairwise (· < ·)) (hm : m.Pairwise (· < ·))
    (h : ∀ x, x ∈ l ↔ x ∈ m) : l = m := by
  have hp : l.Perm m := (List.perm_ext_iff_of_nodup (hl.imp (fun h => Nat.ne_of_lt h))
    (hm.imp (fun h => Nat.ne_of_lt h))).2 h
  exact hp.eq_of_pairwise (fun a b _ _ h1 h2 => by omega) hl hm

/-- The result of `assembleGlueMatrix` for good input. -/
theorem assemble_eq (pre : Nat) (ids : List Ident) (g : GoodIds pre ids) :
    ∃ (post : Nat) (trips : List (Nat × Nat × Int)) (ns : List Nat), assembleGlueMatrix pre ids = some (post, trips) ∧
      trips.length = pre ∧ ns.length = post ∧
      post + (ids.map fun d => d.dofs.tail.length).sum = pre ∧ ns.Pairwise (· < ·) ∧
      (∀ x, x ∈ ns ↔ x < pre ∧ ∀ d ∈ ids, x ∉ d.dofs.tail) ∧
      ∀ r c v, (r, c, v) ∈ trips ↔ ∃ x, ns[c]? = some x ∧
        ((r = x ∧ v = 1) ∨ ∃ d ∈ ids, hd d = x ∧ r ∈ d.dofs.tail ∧ v = d.coef) := by
  have hmark := mark_foldl pre ids g.ne g.lt g.min ((fun _ => false), (fun _ => false), 0)
  simp only [Bool.false_or, Nat.zero_add] at hmark
  set slave : Nat → Bool := fun x => decide (x ∈ ids.flatMap fun d => d.dofs.tail) with hslave
  set master : Nat → Bool := fun x => decide (x ∈ ids.map hd) with hmaster
  set cnt := (ids.map fun d => d.dofs.tail.length).sum with hcnt
  set sorted := ids.insertionSort fun a b => a.dofs.head?.getD 0 ≤ b.dofs.head?.getD 0 with hsorted
  have hperm : sorted.Perm ids := List.perm_insertionSort _ _
  have hmemd : ∀ d ∈ ids, hd d ∈ d.dofs := fun d h => by
    have := List.mem_cons_self (a := hd d) (l := d.dofs.tail)
    rwa [← hd_cons (g.ne d h)] at this
  have hnt : ∀ d ∈ ids, hd d ∉ d.dofs.tail := fun d h => by
    have := g.nodup d h
    rw [hd_cons (g.ne d h)] at this
    exact (List.nodup_cons.1 this).1
  have hidn : (ids.map hd).Nodup := by
    rw [List.nodup_map_iff_inj_on]
    · intro a ha b hb hab
      exact disj_iff g.disj ha hb (hmemd a ha) (hab ▸ hmemd b hb)
    · refine g.disj.imp_of_mem ?_
      intro a b ha hb h hab
      subst hab
      exact h _ (hmemd a ha) (hmemd a ha)
  have hflat : (ids.flatMap fun d => d.dofs.tail).Nodup := by
    rw [List.nodup_flatMap]
    refine ⟨fun d h => (g.nodup d h).sublist (List.tail_sublist _), ?_⟩
    refine g.disj.imp ?_
    intro a b h x hx hx'
    exact h x (List.mem_of_mem_tail hx) (List.mem_of_mem_tail hx')
  have hms : ∀ x, master x = true → slave x = false := by
    intro x hx
    simp only [hmaster, decide_eq_true_eq, List.mem_map] at hx
    obtain ⟨d, hd1, rfl⟩ := hx
    simp only [hslave, decide_eq_false_iff_not, List.mem_flatMap, not_exists, not_and]
    intro e he h
    have : e = d := disj_iff g.disj he hd1 (List.mem_of_mem_tail h) (hmemd d hd1)
    subst this
    exact hnt e he h
  set ns := (List.range pre).filter (fun y => !slave y) with hns
  have hflatlen : (ids.flatMap fun d => d.dofs.tail).length = cnt := by
    rw [List.length_flatMap]
  have hlen : ns.length + cnt = pre := by
    have h1 := List.length_eq_length_filter_add (l := List.range pre) slave
    have h2 : ((List.range pre).filter slave).Perm (ids.flatMap fun d => d.dofs.tail) := by
      rw [List.perm_ext_iff_of_nodup (List.nodup_range.filter _) hflat]
      intro x
      simp only [List.mem_filter, List.mem_range, hslave, decide_eq_true_eq]
      refine ⟨fun h => h.2, fun h => ⟨?_, h⟩⟩
      obtain ⟨d, h1, h2⟩ := List.mem_flatMap.1 h
      exact g.lt d h1 x (List.mem_of_mem_tail h2)
    rw [h2.length_eq, hflatlen, List.length_range] at h1
    rw [hns]
    omega
  have hnss : ns.Pairwise (· < ·) := List.pairwise_lt_range.filter _
  have hnsm : ∀ x, x ∈ ns ↔ x < pre ∧ ∀ d ∈ ids, x ∉ d.dofs.tail := by
    intro x
    simp [hns, hslave]
  have hsp : (sorted.map hd).Pairwise (· < ·) := by
    have h1 : sorted.Pairwise fun a b => a.dofs.head?.getD 0 ≤ b.dofs.head?.getD 0 := by
      haveI : IsTotal Ident fun a b => a.dofs.head?.getD 0 ≤ b.dofs.head?.getD 0 := ⟨fun a b => le_total _ _⟩
      haveI : IsTrans Ident fun a b => a.dofs.head?.getD 0 ≤ b.dofs.head?.getD 0 := ⟨fun a b c h h' => le_trans h h'⟩
      exact List.pairwise_insertionSort _ _
    have h2 : (sorted.map hd).Nodup := (hperm.map hd).nodup_iff.2 hidn
    rw [List.pairwise_map]
    rw [List.Nodup, List.pairwise_map] at h2
    refine (h1.and h2).imp ?_
    rintro a b ⟨h, h'⟩
    exact lt_of_le_of_ne h h'
  have hmi : sorted.map hd = ns.filter master := by
    refine eq_of_sorted_mem hsp (hnss.filter _) ?_
    intro x
    rw [(hperm.map hd).mem_iff, List.mem_filter, hmaster, decide_eq_true_eq]
    refine ⟨fun h => ⟨?_, h⟩, fun h => h.2⟩
    rw [hnsm]
    obtain ⟨d, h1, rfl⟩ := List.mem_map.1 h
    refine ⟨g.lt d h1 _ (hmemd d h1), ?_⟩
    have := hms (hd d) (by simp only [hmaster, decide_eq_true_eq]; exact h)
    simpa [hslave] using this
  obtain ⟨st', g1, g2, g3⟩ := asm_foldl master slave pre sorted (fun d h => g.ne d (hperm.subset h))
    ((hperm.map hd).nodup_iff.2 hidn) hms (pre - cnt) 0 ⟨[], 0, 0⟩ ns (by omega) (by simp)
    (by simp [hns, List.range_eq_range']) (by simpa using hmi)
    (by intro x _; simp only [hmaster, (hperm.map hd).mem_iff])
  have hsum : (sorted.map fun d => d.dofs.tail.length).sum = cnt := (hperm.map _).sum_eq
  have hl : st'.trips.length = pre := by
    rw [g3]
    simp only [List.length_nil, List.drop_zero, hsum]
    omega
  refine ⟨pre - cnt, st'.trips, ns, ?_, hl, by omega, by omega, hnss, hnsm, ?_⟩
  · unfold assembleGlueMatrix
    rw [hmark]
    simp only [Option.bind_eq_bind, Option.bind_some]
    rw [if_neg (by omega), List.range_eq_range', g1]
    simp only [Option.bind_some, hl, ne_eq, not_true_eq_false, if_false]
  · intro r c v
    rw [g2, List.nil_append, List.mem_flatMap]
    constructor
    · rintro ⟨⟨x, i⟩, h1, h2⟩
      rw [List.mk_mem_zipIdx_iff_getElem?] at h1
      simp only [colEntries, List.mem_cons, List.mem_flatMap, List.mem_filter, decide_eq_true_eq, List.mem_map] at h2
      rcases h2 with h2 | ⟨d, ⟨h3, h4⟩, r', h5, h6⟩
      · simp only [Prod.mk.injEq] at h2
        obtain ⟨rfl, rfl, rfl⟩ := h2
        exact ⟨r, h1, Or.inl ⟨rfl, rfl⟩⟩
      · simp only [Prod.mk.injEq] at h6
        obtain ⟨rfl, rfl, rfl⟩ := h6
        exact ⟨x, h1, Or.inr ⟨d, hperm.subset h3, h4, h5, rfl⟩⟩
    · rintro ⟨x, h1, h2⟩
      refine ⟨(x, c), List.mk_mem_zipIdx_iff_getElem?.2 h1, ?_⟩
      simp only [colEntries, List.mem_cons, List.mem_flatMap, List.mem_filter, decide_eq_true_eq, List.mem_map]
      rcases h2 with ⟨rfl, rfl⟩ | ⟨d, h3, h4, h5, rfl⟩
      · exact Or.inl rfl
      · exact Or.inr ⟨d, ⟨hperm.symm.subset h3, h4⟩, r, h5, rfl⟩

end Glue
end Bembel
