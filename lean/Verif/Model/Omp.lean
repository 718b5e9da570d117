import Mathlib.Logic.Function.Basic
import Mathlib.Data.Fintype.Basic
import Mathlib.Algebra.Group.Defs
/-!
# Model of an OpenMP parallel region with `single nowait` tasks and a `critical` reduction

The pattern is used by `H2Matrix/EigenHelper/H2DenseProduct.hpp` l.81-152 and by
`Potential/DiscretePotential.hpp` l.76-105: every thread of the team initialises private memory, runs through the same
list of `single nowait` constructs, each of which is executed by the thread that arrives first, then post-processes its
private memory and adds the result to a shared variable within a `critical` section.

An execution is an interleaving of the steps of the threads, given by a schedule: the list of thread numbers in the
order in which they make steps.  The body of a construct only reads shared constants and writes private memory of its
thread, so it is one step; the final post-processing together with the critical section is one step.  `none` is
undefined behaviour (access out of bounds or an Eigen size mismatch).
-/

namespace Bembel
namespace Omp

/-- Parallel region: `n` single constructs with bodies `body`, private memory `P` initialised by `init`, contribution
`fin` of a thread to the shared variable of type `M`. -/
structure Region (P M : Type) where
  n : Nat
  init : P
  body : Nat → P → Option P
  fin : P → Option M

/-- Shared and private state for `T` threads: `pc t` is the next construct of thread `t` (`n` is the critical section,
`n + 1` the barrier at the end), `claimed i` tells if some thread has already executed construct `i`. -/
structure St (T : Nat) (P M : Type) where
  pc : Fin T → Nat
  claimed : Nat → Bool
  priv : Fin T → P
  dst : M

variable {P M : Type} [AddCommMonoid M] {T : Nat}

/-- One step of thread `t`; waits at the barrier if it is at the end. -/
def step (r : Region P M) (s : St T P M) (t : Fin T) : Option (St T P M) :=
  if s.pc t < r.n then
    if s.claimed (s.pc t) then some { s with pc := Function.update s.pc t (s.pc t + 1) }
    else (r.body (s.pc t) (s.priv t)).map fun p =>
      { s with
        pc := Function.update s.pc t (s.pc t + 1)
        claimed := Function.update s.claimed (s.pc t) true
        priv := Function.update s.priv t p }
  else if s.pc t = r.n then (r.fin (s.priv t)).map fun m =>
      { s with pc := Function.update s.pc t (s.pc t + 1), dst := s.dst + m }
  else some s

/-- State at the begin of the region. -/
def start (r : Region P M) (dst : M) : St T P M := ⟨fun _ => 0, fun _ => false, fun _ => r.init, dst⟩

/-- The shared variable after the schedule. -/
def exec (r : Region P M) (dst : M) (sched : List (Fin T)) : Option M :=
  (sched.foldlM (step r) (start r dst)).map St.dst

/-- A schedule of a team of at least one thread which lets all threads reach the barrier at the end of a region with
`n` constructs. -/
structure Schedule (n : Nat) where
  T : Nat
  pos : 0 < T
  sched : List (Fin T)
  all : ∀ t : Fin T, n + 1 ≤ sched.count t

end Omp
end Bembel
