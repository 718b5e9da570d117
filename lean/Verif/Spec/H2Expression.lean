import Verif.Spec.H2
import Verif.Model.H2Expression
/-!
# Specification: the matrix denoted by an expression of H2-matrices
-/

namespace Bembel
namespace H2
open Finset Mesh

variable {R : Type} [CommRing R] {K : Type} [Field K]

/-- `M` is the `n × n` matrix denoted by the expression: for an H2-matrix on a mesh it is `Tᵀ A T`, with the represented matrix `A` and the
transformation matrix `T`; sums, differences and multiples are those of matrices. -/
inductive Denotes {V : Type} (near : V → V → Bool) (corner : Nat → Nat → V) (E : Type) [NormedAddCommGroup E] (n : Nat) :
    Expr K R → (Nat → Nat → R) → Prop
  | mat {P M : Nat} (hP : 0 < P) (H : Mat K R) (S : Schedules H) (junk : Nat → Nat → R) (ht : initElementTree near corner P M = some H.t)
      (B : Addr → Util.Ball E) (eta : ℝ) (np nc : Nat) (hw : WellFormed H B eta np nc) (A : Nat → Nat → R) (hA : Represents H np A)
      (hn : H.trans.cols = n) :
      Denotes near corner E n (.mat H S junk)
        (fun i d => ∑ r ∈ range H.trans.rows, ∑ k ∈ range H.trans.rows, H.trans.at' r i * A r k * H.trans.at' k d)
  | sum {a b : Expr K R} {X Y} : Denotes near corner E n a X → Denotes near corner E n b Y → Denotes near corner E n (.sum a b) (fun i d => X i d + Y i d)
  | diff {a b : Expr K R} {X Y} : Denotes near corner E n a X → Denotes near corner E n b Y → Denotes near corner E n (.diff a b) (fun i d => X i d - Y i d)
  | scale {a : Expr K R} {X} (beta : R) : Denotes near corner E n a X → Denotes near corner E n (.scale beta a) (fun i d => beta * X i d)

end H2
end Bembel
