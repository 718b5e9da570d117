import Mathlib.Data.Real.Basic
/-!
# Model of `IO::Stopwatch` (`IO/Stopwatch.hpp` l.27-76)

The clock is a sequence of readings, one for every call of `now()`.  Arithmetic is exact.
-/

namespace Bembel
namespace Stopwatch

/-- The members of the class, and the number of clock readings so far. -/
structure State where
  p : ℝ
  durations : List ℝ
  started : Bool
  lapped : Bool
  reads : Nat

/-- The constructor, Stopwatch.hpp l.35-38 (`p_` is the epoch). -/
def init : State := ⟨0, [], false, false, 0⟩

/-- The member functions. -/
inductive Op where
  | tic | toc | start | lap | stop | getData
deriving DecidableEq

/-- What a call returns. -/
inductive Result where
  | nothing
  | time (t : ℝ)
  | data (l : List ℝ)

/-- A call, Stopwatch.hpp l.40-75; `none` is a failed assertion. -/
def call (now : Nat → ℝ) (s : State) : Op → Option (State × Result)
  | .tic => some ({ s with p := now s.reads, reads := s.reads + 1 }, .nothing)
  | .toc => some ({ s with reads := s.reads + 1 }, .time (now s.reads - s.p))
  | .start =>
    let s := { s with durations := [] }
    if s.started = false then some ({ s with started := true, p := now s.reads, reads := s.reads + 1 }, .nothing)
    else none
  | .lap =>
    let out := now s.reads - s.p
    let s := { s with durations := s.durations ++ [out], reads := s.reads + 1 }
    if s.started = true then some ({ s with lapped := true, p := now s.reads, reads := s.reads + 1 }, .time out)
    else none
  | .stop =>
    let out := now s.reads - s.p
    let s := { s with reads := s.reads + 1 }
    if s.started = true then
      if s.lapped = true then some ({ s with lapped := false, started := false }, .time (s.durations.foldl (· + ·) 0))
      else some (s, .time out)
    else none
  | .getData => some (s, .data s.durations)

/-- A history of calls; the results are collected. -/
def run (now : Nat → ℝ) : State → List Op → Option (State × List Result)
  | s, [] => some (s, [])
  | s, o :: os => do
    let (s, r) ← call now s o
    let (s, rs) ← run now s os
    pure (s, r :: rs)

end Stopwatch
end Bembel
