import Mathlib.Data.Real.Archimedean
import Verif.Spec.Text
/-!
# Specification: reading Matlab scripts

A reader for the small part of Matlab needed here: matrices `X=[`, one row per line, `];` and `X = sparse(I,J,V);`.  `read` converts a
printed number.
-/

namespace Bembel
namespace Matlab
open Text

/-- A variable: a full matrix given by its rows, or a sparse matrix with its size and entries. -/
inductive Value where
  | full (rows : List (List ℝ))
  | sparse (rows cols : Nat) (entry : Nat → Nat → ℝ)

/-- Variables and, inside `X=[ ... ];`, the name and the rows read so far. -/
structure State where
  env : Str → Option Value
  pending : Option (Str × List (List ℝ))

/-- Assignment of a variable. -/
def assign (env : Str → Option Value) (name : Str) (v : Value) : Str → Option Value := fun n => if n = name then some v else env n

/-- `sparse(I,J,V)`: indices are counted from 1, the size is given by the largest indices, values at the same position are added. -/
noncomputable def mkSparse (I J V : List ℝ) : Value :=
  .sparse ((I.map fun x => ⌊x⌋₊).foldl max 0) ((J.map fun x => ⌊x⌋₊).foldl max 0) fun r c =>
    ((I.zip (J.zip V)).map fun x => if x.1 = ((r + 1 : Nat) : ℝ) ∧ x.2.1 = ((c + 1 : Nat) : ℝ) then x.2.2 else 0).sum

/-- The arguments in `sparse(a,b,c);`. -/
def sparseArgs (w : Str) : Option (Str × Str × Str) :=
  if w.take 7 = "sparse(".toList ∧ w.drop (w.length - 2) = ");".toList then
    match ((w.drop 7).take (w.length - 9)).splitOn ',' with
    | [a, b, c] => some (a, b, c)
    | _ => none
  else none

/-- The effect of a line. -/
noncomputable def step (read : Str → ℝ) (st : State) (line : Str) : State :=
  match st.pending with
  | some (name, rows) =>
    if words line = [] then st
    else if words line = ["];".toList] then ⟨assign st.env name (.full rows), none⟩
    else ⟨st.env, some (name, rows ++ [(words line).map read])⟩
  | none =>
    match words line with
    | [w] => if w.drop (w.length - 2) = "=[".toList then ⟨st.env, some (w.take (w.length - 2), [])⟩ else st
    | [x, e, w] =>
      match e, sparseArgs w with
      | ['='], some (a, b, c) =>
        match st.env a, st.env b, st.env c with
        | some (.full I), some (.full J), some (.full V) => ⟨assign st.env x (mkSparse I.flatten J.flatten V.flatten), none⟩
        | _, _, _ => st
      | _, _ => st
    | _ => st

/-- The effect of a script. -/
noncomputable def run (read : Str → ℝ) (st : State) (s : Str) : State := (s.splitOn '\n').foldl (step read) st

/-- A name of a variable. -/
def Ident (w : Str) : Prop := w ≠ [] ∧ ∀ c ∈ w, (c.isAlphanum || c == '_') = true

/-- Numbers of a set `D` that contains the natural numbers are printed as tokens without brackets and are read back exactly. -/
structure NumberFormat (fmt : ℝ → Str) (read : Str → ℝ) (D : Set ℝ) : Prop where
  token : ∀ x ∈ D, Token (fmt x)
  bracket : ∀ x ∈ D, ']' ∉ fmt x
  exact : ∀ x ∈ D, read (fmt x) = x
  nat : ∀ n : Nat, (n : ℝ) ∈ D

end Matlab
end Bembel
