import Verif.Model.TextIO
/-!
# Model of `IO::Logger` (`IO/Logger.hpp` l.28-87)

The arguments are given as the texts `operator<<` produces for them (with precision `N - 4`).  The file system is the one of `Model/TextIO`; the
terminal is the text written so far together with the sticky `std::left` flag of `std::cout`.
-/

namespace Bembel
namespace Logger
open TextIO

/-- `std::setw(w)` with `std::left`: blanks on the right. -/
def padRight (w : Nat) (t : Str) : Str := t ++ List.replicate (w - t.length) ' '

/-- `std::setw(w)` without `std::left`: blanks on the left. -/
def padLeft (w : Nat) (t : Str) : Str := List.replicate (w - t.length) ' ' ++ t

/-- `std::ios_base::openmode` as given to the constructor. -/
inductive Mode where
  | trunc | app
deriving DecidableEq

/-- The members of a logger with their defaults, Logger.hpp l.30-33 (`N` is the template parameter). -/
structure Config where
  N : Nat := 10
  name : Str := "default.log".toList
  sep : Str := " ".toList
  mode : Mode := .trunc

/-- The logger's stream, the files and the terminal. -/
structure State where
  isOpen : Bool
  files : Files
  term : Str
  left : Bool

/-- `file`, Logger.hpp l.63-80, one step for each argument; the last argument ends the line. -/
def file (c : Config) (s : State) : List Str → State
  | [] => s
  | [t] =>
    let s := if s.isOpen = false then { s with isOpen := true, files := openOut s.files c.name } else s
    { s with files := write s.files c.name (padRight (c.N + c.sep.length) t ++ "\n".toList) }
  | t :: arg =>
    let s := if s.isOpen = false then { s with isOpen := true, files := openOut s.files c.name } else s
    file c { s with files := write s.files c.name (padRight (c.N + c.sep.length) t ++ c.sep) } arg

/-- `term`, Logger.hpp l.52-62; the overload for one argument does not set `std::left`. -/
def term (c : Config) (s : State) : List Str → State
  | [] => s
  | [t] => { s with term := s.term ++ ((if s.left = true then padRight else padLeft) (c.N + c.sep.length) t ++ "\n".toList) }
  | t :: arg => term c { s with term := s.term ++ (padRight (c.N + c.sep.length) t ++ c.sep), left := true } arg

/-- `both`, Logger.hpp l.81-85. -/
def both (c : Config) (s : State) (arg : List Str) : State := term c (file c s arg) arg

/-- A call. -/
inductive Call where
  | file (arg : List Str)
  | term (arg : List Str)
  | both (arg : List Str)

/-- The effect of a call. -/
def call (c : Config) (s : State) : Call → State
  | .file a => file c s a
  | .term a => term c s a
  | .both a => both c s a

end Logger
end Bembel
