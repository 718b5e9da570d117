import Verif.Model.Stopwatch
/-!
# Specification of the stopwatch
-/

namespace Bembel
namespace Stopwatch

/-- Number of looks at the clock: `lap` looks twice (before and after its own work), `getData` not at all. -/
def Op.reads : Op → Nat
  | .getData => 0
  | .lap => 2
  | _ => 1

/-- The number of clock readings during a history. -/
def readings (ops : List Op) : Nat := (ops.map Op.reads).sum

/-- The history with the number of the first clock reading of every call. -/
def stamped : Nat → List Op → List (Op × Nat)
  | _, [] => []
  | k, o :: os => (o, k) :: stamped (k + o.reads) os

/-- The time from which the next time is measured: the last `start`, `tic` or `lap` (at the end of its own work). -/
def mark (now : Nat → ℝ) (h : List (Op × Nat)) : ℝ :=
  h.foldl (fun m e => match e.1 with
    | .start => now e.2
    | .tic => now e.2
    | .lap => now (e.2 + 1)
    | _ => m) 0

/-- The lap times a user has seen since the last `start`. -/
def seen (h : List (Op × Result)) : List ℝ :=
  h.foldl (fun l e => match e with
    | (.start, _) => []
    | (.lap, .time t) => l ++ [t]
    | _ => l) []

/-- The reading of the last `start`. -/
def startTime (now : Nat → ℝ) (h : List (Op × Nat)) : ℝ := h.foldl (fun m e => if e.1 = .start then now e.2 else m) 0

end Stopwatch
end Bembel
