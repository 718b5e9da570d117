import Verif.Model.Patch
import Verif.Model.Knots
import Mathlib.Algebra.Module.Defs
/-!
# Model of `Spline/Localize.hpp` l.62-122: interpolation in the Bernstein basis

Exact arithmetic; an access out of bounds is `none`.  `Eigen::MatrixXd::inverse` is the parameter `inv n A`.
-/

namespace Bembel
namespace Spl

open Basis

variable {K : Type} [Field K] {V : Type} [AddCommGroup V] [Module K V]

/-- `GetInterpolationMatrix`, Spline/Localize.hpp l.67-81.  `junk` is the content of the uninitialised stack buffer
`double val[Constants::MaxP + 1]` (21 entries), `junkM` that of the uninitialised matrix. -/
def getInterpolationMatrix (junk : Nat → K) (junkM : Nat → Nat → K) (inv : Nat → (Nat → Nat → K) → Nat → Nat → K) (degree : Int) (mask : List K) :
    Option (Nat → Nat → K) := do
  let n := (degree + 1).toNat
  let st ← forOpt n (fun (st : (Nat → Nat → K) × (Nat → K)) j => do
    let x ← mask[j]?
    let val := handlerEvalBasis degree st.2 x
    let m ← forOpt n (fun m i => if i < MaxP + 1 then some (upd2 m j i (val i)) else none) st.1
    some (m, val)) (junkM, junk)
  some (inv n st.1)

/-- `GetCoefficients` with an output pointer, Spline/Localize.hpp l.87-110.  `rhs` and `tmp` are vectors of `polynomial_degree + 1`
entries; the unread entries of the model's `rhs` are those of `junkV`. -/
def getCoefficientsTo (junk : Nat → K) (junkM : Nat → Nat → K) (junkV : Nat → V) (inv : Nat → (Nat → Nat → K) → Nat → Nat → K) (incr : Nat)
    (mask : List K) (values : List V) (coefs : Nat → V) : Option (Nat → V) := do
  let degree := (mask.length : Int) - 1
  let n := (degree + 1).toNat
  let im ← getInterpolationMatrix junk junkM inv degree mask
  forOpt incr (fun coefs i => do
    let rhs ← forOpt n (fun rhs j => do
      let v ← values[i * n + j]?
      some (upd rhs j v)) junkV
    let tmp : Nat → V := fun r => ((List.range n).map fun k => im r k • rhs k).sum
    some (forLoop n (fun coefs j => upd coefs (i * n + j) (tmp j)) coefs)) coefs

/-- `GetCoefficients` returning a vector, Spline/Localize.hpp l.115-123: `increments * mask.size()` entries. -/
def getCoefficients (junk : Nat → K) (junkM : Nat → Nat → K) (junkV : Nat → V) (inv : Nat → (Nat → Nat → K) → Nat → Nat → K) (incr : Nat)
    (mask : List K) (values : List V) : Option (List V) := do
  let out ← getCoefficientsTo junk junkM junkV inv incr mask values (fun _ => 0)
  some ((List.range (incr * mask.length)).map out)

end Spl
end Bembel
