import Mathlib.Analysis.SpecialFunctions.Pow.Real
import Verif.Model.LinearForm
/-!
# Model of `util/surfaceL2error.hpp`

Real scalars (for complex ones the function does not compile) and scalar ansatz functions.  Exact arithmetic; `none` is undefined behaviour.
-/

namespace Bembel
namespace L2Error
open Mesh SuperSpace FunctionEval

/-- `surfaceL2error`, surfaceL2error.hpp l.17-46; `g` is `functor`, `Q` is `GS[deg]`, `e0` the memory of the evaluator `fun_val`. -/
noncomputable def surfaceL2error (junk : Nat → ℝ) (e0 : Evaluator ℝ) (space : Space ℝ) (vec : EMat ℝ) (g : V3 → ℝ) (Q : Cubature ℝ) : Option ℝ := do
  let e ← FunctionEval.init e0 space
  let e ← setFunction 1 e vec
  let els ← Mesh.elements space.t
  let retval ← els.foldlM (fun retval a => (List.range Q.size).foldlM (fun (retval : ℝ) i => do
      let qp := map2surface space.t space.geo a (Q.xi i) (Q.w i)
      let kappa := ‖cross3 qp.dx qp.dy‖
      let val ← evaluate junk e a qp
      some (retval + kappa * Q.w i * getH space.t a * getH space.t a * (g qp.f - val) * (g qp.f - val))) retval) 0
  some (Real.sqrt retval)

end L2Error
end Bembel
