import Mathlib.Tactic.Linarith
import Mathlib.Data.List.Induction
import Mathlib.Order.Monotone.Basic
import Mathlib.Algebra.BigOperators.Group.List.Basic
import Verif.Spec.Stopwatch
/-!
# Property C73: the stopwatch
-/

namespace Bembel.Props
open Bembel.Stopwatch

variable {now : Nat → ℝ}

theorem watch_append (s : State) (a b : List Op) : run now s (a ++ b) = (run now s a).bind fun x => (run now x.1 b).bind fun y => some (y.1, x.2 ++ y.2) := by
  induction a generalizing s with
  | nil => simp [run]
  | cons o a ih =>
    simp only [List.cons_append, run, ih, Option.bind_eq_bind]
    cases call now s o with
    | none => rfl
    | some x =>
      simp only [Option.bind_some]
      cases run now x.1 a with
      | none => rfl
      | some y =>
        simp only [Option.bind_some, Option.pure_def]
        cases run now y.1 b <;> rfl

theorem watch_snoc {ops : List Op} {o : Op} {s0 s : State} {rs : List Result} (h : run now s0 (ops ++ [o]) = some (s, rs)) :
    ∃ s' rs' r, run now s0 ops = some (s', rs') ∧ call now s' o = some (s, r) ∧ rs = rs' ++ [r] := by
  rw [watch_append] at h
  cases h1 : run now s0 ops with
  | none => rw [h1] at h; simp at h
  | some x =>
    rw [h1] at h
    simp only [Option.bind_some, run, Option.bind_eq_bind, Option.pure_def] at h
    cases h2 : call now x.1 o with
    | none => rw [h2] at h; simp at h
    | some y =>
      rw [h2] at h
      simp only [Option.bind_some, Option.some.injEq, Prod.mk.injEq] at h
      exact ⟨x.1, x.2, y.2, rfl, by rw [h2, ← h.1], h.2.symm⟩

theorem stamped_append (k : Nat) (a b : List Op) : stamped k (a ++ b) = stamped k a ++ stamped (k + readings a) b := by
  induction a generalizing k with
  | nil => rfl
  | cons o a ih =>
    simp only [List.cons_append, stamped, ih, readings, List.map_cons, List.sum_cons]
    rw [Nat.add_assoc]

theorem readings_snoc (ops : List Op) (o : Op) : readings (ops ++ [o]) = readings ops + o.reads := by simp [readings]

theorem watch_length {ops : List Op} : ∀ {s0 s : State} {rs : List Result}, run now s0 ops = some (s, rs) → rs.length = ops.length := by
  induction ops using List.reverseRecOn with
  | nil => intro s0 s rs h; simp only [run, Option.some.injEq, Prod.mk.injEq] at h; rw [← h.2]; rfl
  | append_singleton ops o ih =>
    intro s0 s rs h
    obtain ⟨s', rs', r, h1, _, rfl⟩ := watch_snoc h
    simp [ih h1]

/-- What the members hold after a history. -/
theorem watch_members {ops : List Op} : ∀ {s : State} {rs : List Result}, run now init ops = some (s, rs) →
    s.reads = readings ops ∧ s.p = mark now (stamped 0 ops) ∧ s.durations = seen (ops.zip rs) := by
  induction ops using List.reverseRecOn with
  | nil =>
    intro s rs h
    simp only [run, Option.some.injEq, Prod.mk.injEq] at h
    obtain ⟨rfl, rfl⟩ := h
    exact ⟨rfl, rfl, rfl⟩
  | append_singleton ops o ih =>
    intro s rs h
    obtain ⟨s', rs', r, h1, h2, rfl⟩ := watch_snoc h
    obtain ⟨i1, i2, i3⟩ := ih h1
    have hl := watch_length h1
    rw [readings_snoc, stamped_append, List.zip_append hl.symm]
    unfold mark seen at *
    rw [List.foldl_append, List.foldl_append, ← i2, ← i3]
    cases o with
    | tic =>
      simp only [call, Option.some.injEq, Prod.mk.injEq] at h2
      obtain ⟨rfl, rfl⟩ := h2
      simp [stamped, Op.reads, i1]
    | toc =>
      simp only [call, Option.some.injEq, Prod.mk.injEq] at h2
      obtain ⟨rfl, rfl⟩ := h2
      simp [stamped, Op.reads, i1]
    | start =>
      simp only [call] at h2
      split at h2
      · simp only [Option.some.injEq, Prod.mk.injEq] at h2
        obtain ⟨rfl, rfl⟩ := h2
        simp [stamped, Op.reads, i1]
      · exact absurd h2 (by simp)
    | lap =>
      simp only [call] at h2
      split at h2
      · simp only [Option.some.injEq, Prod.mk.injEq] at h2
        obtain ⟨rfl, rfl⟩ := h2
        simp [stamped, Op.reads, i1]
      · exact absurd h2 (by simp)
    | stop =>
      simp only [call] at h2
      split at h2
      · split at h2
        · simp only [Option.some.injEq, Prod.mk.injEq] at h2
          obtain ⟨rfl, rfl⟩ := h2
          simp [stamped, Op.reads, i1]
        · simp only [Option.some.injEq, Prod.mk.injEq] at h2
          obtain ⟨rfl, rfl⟩ := h2
          simp [stamped, Op.reads, i1]
      · exact absurd h2 (by simp)
    | getData =>
      simp only [call, Option.some.injEq, Prod.mk.injEq] at h2
      obtain ⟨rfl, rfl⟩ := h2
      simp [stamped, Op.reads, i1]

/-- C73: for every history of calls, `lap` and `toc` return the time since the last `start`, `lap` or `tic` (the work of `lap` itself is not
measured), and `get_data` returns the lap times since the last `start` in the order in which `lap` has returned them. -/
theorem C73_times {ops : List Op} {o : Op} {s : State} {rs : List Result} {r : Result} (h : run now init (ops ++ [o]) = some (s, rs ++ [r])) :
    (o = .lap ∨ o = .toc → r = .time (now (readings ops) - mark now (stamped 0 ops))) ∧ (o = .getData → r = .data (seen (ops.zip rs))) := by
  obtain ⟨s', rs', r', h1, h2, h3⟩ := watch_snoc h
  obtain ⟨rfl, h4⟩ := List.append_inj' h3 rfl
  rw [List.cons.injEq] at h4
  obtain ⟨rfl, -⟩ := h4
  obtain ⟨i1, i2, i3⟩ := watch_members h1
  rw [← i1, ← i2, ← i3]
  constructor
  · rintro (rfl | rfl)
    · simp only [call] at h2
      split at h2
      · simp only [Option.some.injEq, Prod.mk.injEq] at h2
        exact h2.2.symm
      · exact absurd h2 (by simp)
    · simp only [call, Option.some.injEq, Prod.mk.injEq] at h2
      exact h2.2.symm
  · rintro rfl
    simp only [call, Option.some.injEq, Prod.mk.injEq] at h2
    exact h2.2.symm

theorem watch_flags {ops : List Op} : ∀ {s : State} {rs : List Result}, run now init ops = some (s, rs) →
    (s.started = false → s.lapped = false) ∧ (s.started = true → (s.lapped = true ↔ s.durations ≠ [])) := by
  induction ops using List.reverseRecOn with
  | nil =>
    intro s rs h
    simp only [run, Option.some.injEq, Prod.mk.injEq] at h
    obtain ⟨rfl, rfl⟩ := h
    exact ⟨fun _ => rfl, fun h => absurd h (by decide)⟩
  | append_singleton ops o ih =>
    intro s rs h
    obtain ⟨s', rs', r, h1, h2, rfl⟩ := watch_snoc h
    obtain ⟨i1, i2⟩ := ih h1
    cases o with
    | tic =>
      simp only [call, Option.some.injEq, Prod.mk.injEq] at h2
      obtain ⟨rfl, rfl⟩ := h2
      exact ⟨i1, i2⟩
    | toc =>
      simp only [call, Option.some.injEq, Prod.mk.injEq] at h2
      obtain ⟨rfl, rfl⟩ := h2
      exact ⟨i1, i2⟩
    | start =>
      simp only [call] at h2
      split at h2
      · rename_i hs
        simp only [Option.some.injEq, Prod.mk.injEq] at h2
        obtain ⟨rfl, rfl⟩ := h2
        exact ⟨fun h => absurd h (by simp), fun _ => by simp [i1 hs]⟩
      · exact absurd h2 (by simp)
    | lap =>
      simp only [call] at h2
      split at h2
      · rename_i hs
        simp only [Option.some.injEq, Prod.mk.injEq] at h2
        obtain ⟨rfl, rfl⟩ := h2
        have hs : s'.started = true := hs
        exact ⟨fun h => absurd h (by simp [hs]), fun _ => by simp⟩
      · exact absurd h2 (by simp)
    | stop =>
      simp only [call] at h2
      split at h2
      · split at h2
        · simp only [Option.some.injEq, Prod.mk.injEq] at h2
          obtain ⟨rfl, rfl⟩ := h2
          exact ⟨fun _ => rfl, fun h => absurd h (by simp)⟩
        · simp only [Option.some.injEq, Prod.mk.injEq] at h2
          obtain ⟨rfl, rfl⟩ := h2
          exact ⟨i1, i2⟩
      · exact absurd h2 (by simp)
    | getData =>
      simp only [call, Option.some.injEq, Prod.mk.injEq] at h2
      obtain ⟨rfl, rfl⟩ := h2
      exact ⟨i1, i2⟩

/-- C73: for every history of calls, `stop` returns the time since the last `start` or `tic` if there was no lap, and the sum of the lap times
otherwise. -/
theorem C73_stop {ops : List Op} {s : State} {rs : List Result} {r : Result} (h : run now init (ops ++ [.stop]) = some (s, rs ++ [r])) :
    r = .time (if seen (ops.zip rs) = [] then now (readings ops) - mark now (stamped 0 ops) else (seen (ops.zip rs)).sum) := by
  obtain ⟨s', rs', r', h1, h2, h3⟩ := watch_snoc h
  obtain ⟨rfl, h4⟩ := List.append_inj' h3 rfl
  rw [List.cons.injEq] at h4
  obtain ⟨rfl, -⟩ := h4
  obtain ⟨i1, i2, i3⟩ := watch_members h1
  obtain ⟨f1, f2⟩ := watch_flags h1
  rw [← i1, ← i2, ← i3]
  simp only [call] at h2
  split at h2
  · rename_i hs
    have f3 := f2 hs
    split at h2
    · rename_i hl
      simp only [Option.some.injEq, Prod.mk.injEq] at h2
      rw [if_neg (f3.1 hl), ← h2.2, List.sum_eq_foldl]
    · rename_i hl
      simp only [Option.some.injEq, Prod.mk.injEq] at h2
      have : s'.durations = [] := by
        by_contra hd
        exact hl (f3.2 hd)
      rw [if_pos this, ← h2.2]
  · exact absurd h2 (by simp)

theorem watch_laps (s : State) (hs : s.started = true) (n : Nat) : ∃ s' rs, run now s (List.replicate n .lap) = some (s', rs) ∧ s'.started = true ∧
    (0 < n → s'.lapped = true) ∧ s'.reads = s.reads + 2 * n := by
  induction n generalizing s with
  | zero => exact ⟨s, [], rfl, hs, by omega, rfl⟩
  | succ n ih =>
    rw [List.replicate_succ]
    simp only [run, call, hs, if_true, Option.bind_eq_bind, Option.bind_some]
    obtain ⟨s', rs, h1, h2, h3, h4⟩ := ih { s with durations := s.durations ++ [now s.reads - s.p], lapped := true, p := now (s.reads + 1), reads := s.reads + 1 + 1, started := true } rfl
    simp only at h1 h4 ⊢
    rw [h1]
    refine ⟨s', _, rfl, h2, fun _ => ?_, by rw [h4]; omega⟩
    by_cases hn : 0 < n
    · exact h3 hn
    · have : n = 0 := by omega
      subst this
      simp only [List.replicate_zero, run, Option.some.injEq, Prod.mk.injEq] at h1
      rw [← h1.1]

/-- C73: measurements with at least one lap each can follow one another: no assertion fails. -/
theorem C73_cycles (ns : List Nat) (hn : ∀ n ∈ ns, 0 < n) :
    ∃ s rs, run now init (ns.flatMap fun n => .start :: List.replicate n .lap ++ [.stop, .getData]) = some (s, rs) ∧ s.started = false := by
  have gen : ∀ s0 : State, s0.started = false → ∃ s rs, run now s0 (ns.flatMap fun n => .start :: List.replicate n .lap ++ [.stop, .getData]) = some (s, rs) ∧
      s.started = false := by
    induction ns with
    | nil => exact fun s0 h0 => ⟨s0, [], rfl, h0⟩
    | cons n ns ih =>
      intro s0 h0
      rw [List.flatMap_cons, List.cons_append, List.cons_append]
      simp only [run, call, h0, if_true, Option.bind_eq_bind, Option.bind_some]
      rw [List.append_assoc, watch_append]
      obtain ⟨s1, r1, a1, a2, a3, -⟩ := watch_laps (now := now) { s0 with durations := [], started := true, p := now s0.reads, reads := s0.reads + 1 } rfl n
      rw [a1]
      simp only [List.cons_append, List.nil_append, run, call, a2, a3 (hn n (by simp)), if_true, Option.bind_eq_bind, Option.bind_some]
      obtain ⟨s2, r2, b1, b2⟩ := ih (fun m hm => hn m (by simp [hm])) { s1 with lapped := false, started := false, reads := s1.reads + 1 } rfl
      simp only [List.cons_append] at b1
      rw [b1]
      exact ⟨s2, _, rfl, b2⟩
  exact gen init rfl

/-- What the documentation says about `stop`: the overall time since `start`. -/
def StopGivesOverall : Prop := ∀ (now : Nat → ℝ), Monotone now → ∀ (ops : List Op) (s : State) (rs : List Result) (r : Result),
  run now init (ops ++ [.stop]) = some (s, rs ++ [r]) → r = .time (now (readings ops) - startTime now (stamped 0 ops))

/-- What one expects of `start`: a stopwatch that has been stopped can be started again. -/
def Restartable : Prop := ∀ (now : Nat → ℝ) (ops : List Op) (x : State × List Result), run now init (ops ++ [.stop]) = some x →
  (run now init (ops ++ [.stop] ++ [.start])).isSome

/-- C73: after a lap, `stop` does not return the overall time (the time after the last lap is missing); after a measurement without laps the stopwatch
cannot be started again. -/
theorem C73_stop_violated : ¬ StopGivesOverall ∧ ¬ Restartable := by
  constructor
  · intro h
    have := h (fun n => n) Nat.mono_cast [.start, .lap] ⟨2, [1], false, false, 4⟩ [.nothing, .time 1] (.time 1)
      (by simp [run, call, init]; norm_num)
    simp [readings, Op.reads, startTime, stamped] at this
  · intro h
    have := h (fun n => n) [.start] (⟨0, [], true, false, 2⟩, [.nothing, .time 1]) (by simp [run, call, init])
    simp [run, call, init] at this

/-- The hypotheses of C73 are met by two measurements. -/
example : ∃ s rs, run (fun n => (n : ℝ)) init ([2, 3].flatMap fun n => .start :: List.replicate n .lap ++ [.stop, .getData]) = some (s, rs) ∧ s.started = false :=
  C73_cycles [2, 3] (by decide)

/-- A history with a lap: `get_data` returns the lap time. -/
example : ∃ r, r = Result.data (seen ([.start, .lap].zip [.nothing, .time 1])) ∧
    run (fun n => (n : ℝ)) init ([.start, .lap] ++ [.getData]) = some (⟨2, [1], true, true, 3⟩, [.nothing, .time 1] ++ [r]) :=
  ⟨_, rfl, by simp [run, call, init, seen]; norm_num⟩

end Bembel.Props
