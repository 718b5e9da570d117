import Verif.Model.Omp
import Mathlib.Algebra.BigOperators.Group.Finset.Basic
import Mathlib.Data.Fintype.Card
import Mathlib.Algebra.BigOperators.Fin
/-!
# Every schedule of a `single nowait` region with critical reduction gives the sum of all contributions
-/

namespace Bembel
namespace Omp

open Finset

variable {P M : Type} [AddCommMonoid M] {T : Nat}

/-- The body of construct `i` adds `c i` to the value `val` of the private memory. -/
structure Adds (r : Region P M) (Inv : P → Prop) (val : P → M) (c : Nat → M) : Prop where
  init : Inv r.init
  zero : val r.init = 0
  body : ∀ i < r.n, ∀ p, Inv p → ∃ q, r.body i p = some q ∧ Inv q ∧ val q = val p + c i
  fin : ∀ p, Inv p → r.fin p = some (val p)

/-- Invariant of the region. -/
structure Inv' (r : Region P M) (Inv : P → Prop) (val : P → M) (c : Nat → M) (dst : M) (s : St T P M) : Prop where
  priv : ∀ t, Inv (s.priv t)
  pc : ∀ t, s.pc t ≤ r.n + 1
  passed : ∀ t, ∀ i < s.pc t, i < r.n → s.claimed i = true
  sum : s.dst + ∑ t, (if s.pc t ≤ r.n then val (s.priv t) else 0) =
    dst + ∑ i ∈ range r.n, if s.claimed i then c i else 0

theorem sum_update {ι : Type} [Fintype ι] [DecidableEq ι] (f g : ι → M) (t : ι) (x : M) (hne : ∀ u ≠ t, f u = g u)
    (ht : f t = g t + x) : ∑ u, f u = (∑ u, g u) + x := by
  rw [← Finset.add_sum_erase _ f (mem_univ t), ← Finset.add_sum_erase _ g (mem_univ t), ht]
  rw [Finset.sum_congr rfl fun u hu => hne u (Finset.ne_of_mem_erase hu)]
  rw [add_assoc, add_assoc, add_comm x]

theorem step_inv {r : Region P M} {Inv : P → Prop} {val : P → M} {c : Nat → M} {dst : M} (ha : Adds r Inv val c)
    {s : St T P M} (hs : Inv' r Inv val c dst s) (t : Fin T) :
    ∃ s', step r s t = some s' ∧ Inv' r Inv val c dst s' ∧
      s'.pc = Function.update s.pc t (min (s.pc t + 1) (r.n + 1)) := by
  unfold step
  by_cases h1 : s.pc t < r.n
  · rw [if_pos h1]
    have hmin : min (s.pc t + 1) (r.n + 1) = s.pc t + 1 := min_eq_left (by omega)
    by_cases h2 : s.claimed (s.pc t) = true
    · rw [if_pos h2]
      refine ⟨_, rfl, ⟨hs.priv, ?_, ?_, ?_⟩, by rw [hmin]⟩
      · intro u
        by_cases hu : u = t
        · subst hu; simp only [Function.update_self]; omega
        · simp only [Function.update_of_ne hu]; exact hs.pc u
      · intro u i hi hin
        by_cases hu : u = t
        · subst hu
          simp only [Function.update_self] at hi
          rcases Nat.lt_succ_iff_lt_or_eq.1 hi with h | h
          · exact hs.passed u i h hin
          · rw [h]; exact h2
        · simp only [Function.update_of_ne hu] at hi; exact hs.passed u i hi hin
      · rw [← hs.sum]
        congr 1
        apply Finset.sum_congr rfl
        intro u _
        by_cases hu : u = t
        · subst hu; simp only [Function.update_self]; rw [if_pos (by omega), if_pos (by omega)]
        · simp only [Function.update_of_ne hu]
    · rw [if_neg h2]
      obtain ⟨q, hq, hqi, hqv⟩ := ha.body _ h1 _ (hs.priv t)
      rw [hq]
      refine ⟨_, rfl, ⟨?_, ?_, ?_, ?_⟩, by rw [hmin]⟩
      · intro u
        by_cases hu : u = t
        · subst hu; simpa only [Function.update_self] using hqi
        · simp only [Function.update_of_ne hu]; exact hs.priv u
      · intro u
        by_cases hu : u = t
        · subst hu; simp only [Function.update_self]; omega
        · simp only [Function.update_of_ne hu]; exact hs.pc u
      · intro u i hi hin
        by_cases hip : i = s.pc t
        · subst hip; simp only [Function.update_self]
        · simp only [Function.update_of_ne hip]
          by_cases hu : u = t
          · subst hu
            simp only [Function.update_self] at hi
            exact hs.passed u i (by omega) hin
          · simp only [Function.update_of_ne hu] at hi
            exact hs.passed u i hi hin
      · simp only
        rw [sum_update (fun u => if Function.update s.pc t (s.pc t + 1) u ≤ r.n then
            val (Function.update s.priv t q u) else 0) (fun u => if s.pc u ≤ r.n then val (s.priv u) else 0) t
            (c (s.pc t))]
        · rw [← add_assoc, hs.sum, add_assoc]
          congr 1
          have hm : s.pc t ∈ range r.n := mem_range.2 h1
          rw [← Finset.add_sum_erase _ _ hm, ← Finset.add_sum_erase _ _ hm]
          have e : (if Function.update s.claimed (s.pc t) true (s.pc t) = true then c (s.pc t) else 0) = c (s.pc t) := by
            rw [if_pos (by rw [Function.update_self])]
          rw [if_neg h2, zero_add, add_comm]
          refine Eq.trans ?_ (congrArg (· + _) e.symm)
          congr 1
          apply Finset.sum_congr rfl
          intro i hi
          have e' : Function.update s.claimed (s.pc t) true i = s.claimed i :=
            Function.update_of_ne (Finset.ne_of_mem_erase hi) _ _
          exact if_congr (by rw [e']) rfl rfl
        · intro u hu
          simp only [Function.update_of_ne hu]
        · simp only [Function.update_self]
          rw [if_pos (by omega), if_pos (by omega), hqv]
  · rw [if_neg h1]
    by_cases h2 : s.pc t = r.n
    · rw [if_pos h2, ha.fin _ (hs.priv t)]
      refine ⟨_, rfl, ⟨hs.priv, ?_, ?_, ?_⟩, by rw [min_eq_left (by omega)]⟩
      · intro u
        by_cases hu : u = t
        · subst hu; simp only [Function.update_self]; omega
        · simp only [Function.update_of_ne hu]; exact hs.pc u
      · intro u i hi hin
        by_cases hu : u = t
        · subst hu
          exact hs.passed u i (by omega) hin
        · simp only [Function.update_of_ne hu] at hi; exact hs.passed u i hi hin
      · rw [← hs.sum]
        simp only
        rw [add_assoc]
        congr 1
        rw [add_comm]
        symm
        apply sum_update
        · intro u hu
          show _ = if Function.update s.pc t (s.pc t + 1) u ≤ r.n then _ else _
          rw [Function.update_of_ne hu]
        · show _ = (if Function.update s.pc t (s.pc t + 1) t ≤ r.n then _ else _) + _
          rw [Function.update_self, if_pos (by omega), if_neg (by omega), zero_add]
    · rw [if_neg h2]
      refine ⟨_, rfl, hs, ?_⟩
      have := hs.pc t
      rw [min_eq_right (by omega), show r.n + 1 = s.pc t by omega, Function.update_eq_self]

theorem run_inv {r : Region P M} {Inv : P → Prop} {val : P → M} {c : Nat → M} {dst : M} (ha : Adds r Inv val c)
    (sched : List (Fin T)) : ∀ s : St T P M, Inv' r Inv val c dst s →
    ∃ s', sched.foldlM (step r) s = some s' ∧ Inv' r Inv val c dst s' ∧
      ∀ t, s'.pc t = min (s.pc t + sched.count t) (r.n + 1) := by
  induction sched with
  | nil =>
    intro s hs
    refine ⟨s, rfl, hs, fun t => ?_⟩
    have := hs.pc t
    simp only [List.count_nil]; omega
  | cons u l ih =>
    intro s hs
    obtain ⟨s1, h1, h2, h3⟩ := step_inv ha hs u
    obtain ⟨s2, h4, h5, h6⟩ := ih s1 h2
    refine ⟨s2, ?_, h5, fun t => ?_⟩
    · rw [List.foldlM_cons, h1]; exact h4
    · rw [h6 t, h3]
      by_cases ht : t = u
      · subst ht
        rw [Function.update_self, List.count_cons_self]; omega
      · rw [Function.update_of_ne ht, List.count_cons_of_ne (Ne.symm ht)]

/-- **Schedule independence.**  Every complete schedule, for any number of threads, yields the sum of the contributions
of all constructs, without undefined behaviour. -/
theorem exec_eq {r : Region P M} {Inv : P → Prop} {val : P → M} {c : Nat → M} (dst : M) (ha : Adds r Inv val c)
    (S : Schedule r.n) : exec r dst S.sched = some (dst + ∑ i ∈ range r.n, c i) := by
  have h0 : Inv' r Inv val c dst (start (T := S.T) r dst) := by
    refine ⟨fun _ => ha.init, fun _ => Nat.zero_le _, fun t i hi => absurd hi (Nat.not_lt_zero _), ?_⟩
    simp [start, ha.zero]
  obtain ⟨s, h1, h2, h3⟩ := run_inv ha S.sched _ h0
  unfold exec
  rw [h1, Option.map_some]
  congr 1
  have hpc : ∀ t, s.pc t = r.n + 1 := by
    intro t
    have := S.all t
    rw [h3 t]; simp only [start]; omega
  have hs := h2.sum
  have e1 : ∑ t, (if s.pc t ≤ r.n then val (s.priv t) else 0) = 0 := by
    apply Finset.sum_eq_zero
    intro t _
    rw [hpc t, if_neg (by omega)]
  rw [e1, add_zero] at hs
  rw [hs]
  congr 1
  apply Finset.sum_congr rfl
  intro i hi
  have hi := mem_range.1 hi
  rw [if_pos (h2.passed ⟨0, S.pos⟩ i (by rw [hpc]; omega) hi)]

end Omp
end Bembel
