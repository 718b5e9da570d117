import Mathlib.Algebra.Ring.Defs
import Mathlib.Data.Nat.Cast.Defs
/-!
# Model of `Spline/Pascal.hpp`, `Spline/Bernstein.hpp`, `Spline/ShapeFunctions.hpp`, `Spline/Basis.hpp`

Buffers `T *in` / `Eigen::Matrix<Scalar,Dynamic,1> *c` are modelled as total functions
`Nat → K`; a write to slot `n` is `upd buf n v`.  A write outside the slots that the caller
provides would show up as a change of `buf` at an index `> p`; the property theorems exclude that.
`double` is an arbitrary commutative ring `K` (exact arithmetic, rounding is not modelled).
-/

namespace Bembel

/-- A C buffer `T*` (assignment `buf[n] = v`). -/
def upd {K : Type*} (buf : Nat → K) (n : Nat) (v : K) : Nat → K :=
  fun i => if i = n then v else buf i

namespace Basis

/-- `Binomial<K,N>::value`, Spline/Pascal.hpp l.29-49.  The arguments with `K > N` do not compile
(`static_assertKlessseqN<false>`); the model returns 0 there. -/
def binomial : Nat → Nat → Nat
  | 0, _ => 1
  | _ + 1, 0 => 0
  | k + 1, n + 1 => if k = n then 1 else if n < k then 0 else binomial k n + binomial (k + 1) n

variable {K : Type*} [CommRing K]

/-- `BernsteinX<N>`, Spline/Bernstein.hpp l.22-42 (for `N ≥ 0`; the anchor `N = -1` only occurs
in the degree-zero derivative, see `evalDerBasisTop`). -/
def bernsteinX : Nat → K → K
  | 0, _ => 1
  | 1, x => x
  | n + 2, x => x * bernsteinX (n + 1) x

/-- `Bernstein<N,P>`, Spline/Bernstein.hpp l.44-48. -/
def bernstein (N P : Nat) (x : K) : K :=
  (binomial N P : K) * bernsteinX N x * bernsteinX (P - N) (1 - x)

/-- `HiddenBernsteinClass<T,N,P>::EvalCoefs`, Spline/Bernstein.hpp l.55-58 and l.91-93. -/
def evalCoefs (P : Nat) : Nat → (Nat → K) → K → K
  | 0, inn, x => inn 0 * bernstein 0 P x
  | N + 1, inn, x => inn (N + 1) * bernstein (N + 1) P x + evalCoefs P N inn x

/-- `HiddenBernsteinClass<T,N,P>::EvalDerCoefs`, Spline/Bernstein.hpp l.59-63 and l.94-97. -/
def evalDerCoefs (P : Nat) : Nat → (Nat → K) → K → K
  | 0, inn, x => (inn 1 - inn 0) * bernstein 0 P x
  | N + 1, inn, x =>
      (inn (N + 2) - inn (N + 1)) * bernstein (N + 1) P x + evalDerCoefs P N inn x

/-- `HiddenBernsteinClass<T,N,P>::EvalBasisPEQ`, Spline/Bernstein.hpp l.64-68 and l.98-101. -/
def evalBasisPEQ (P : Nat) : Nat → (Nat → K) → K → (Nat → K)
  | 0, inn, x => upd inn 0 (inn 0 + bernstein 0 P x)
  | N + 1, inn, x => evalBasisPEQ P N (upd inn (N + 1) (inn (N + 1) + bernstein (N + 1) P x)) x

/-- `HiddenBernsteinClass<T,N,P>::EvalBasis`, Spline/Bernstein.hpp l.75-79 and l.108-111. -/
def evalBasis (P : Nat) : Nat → (Nat → K) → K → (Nat → K)
  | 0, inn, x => upd inn 0 (bernstein 0 P x)
  | N + 1, inn, x => evalBasis P N (upd inn (N + 1) (bernstein (N + 1) P x)) x

/-- `HiddenBernsteinClass<T,N,P>::EvalDerBasisPEQ`, Spline/Bernstein.hpp l.69-74 and l.102-106. -/
def evalDerBasisPEQ (P : Nat) : Nat → (Nat → K) → K → (Nat → K)
  | 0, inn, x => upd inn 0 (inn 0 + (-(P : K) - 1) * bernstein 0 P x)
  | N + 1, inn, x =>
      evalDerBasisPEQ P N
        (upd inn (N + 1) (inn (N + 1) + ((P : K) + 1) * (bernstein N P x - bernstein (N + 1) P x))) x

/-- `HiddenBernsteinClass<T,N,P>::EvalDerBasis`, Spline/Bernstein.hpp l.80-85 and l.112-116. -/
def evalDerBasis (P : Nat) : Nat → (Nat → K) → K → (Nat → K)
  | 0, inn, x => upd inn 0 ((-(P : K) - 1) * bernstein 0 P x)
  | N + 1, inn, x =>
      evalDerBasis P N
        (upd inn (N + 1) (((P : K) + 1) * (bernstein N P x - bernstein (N + 1) P x))) x

/-- `EvalBernstein<T,P>`, Spline/Bernstein.hpp l.167-170. -/
def EvalBernstein (P : Nat) (inn : Nat → K) (x : K) : K := evalCoefs P P inn x

/-- `EvalBernsteinBasis<T,P>`, Spline/Bernstein.hpp l.197-201. -/
def EvalBernsteinBasis (P : Nat) (inn : Nat → K) (x : K) : Nat → K := evalBasis P P inn x

/-- `EvalBernsteinBasisPEQ<T,P>`, Spline/Bernstein.hpp l.191-195. -/
def EvalBernsteinBasisPEQ (P : Nat) (inn : Nat → K) (x : K) : Nat → K := evalBasisPEQ P P inn x

/-- `EvalBernsteinDer<T,P>`, Spline/Bernstein.hpp l.205-209.  For `P = 0` the recursion class is
`HiddenBernsteinClass<T,-1,-1>` whose `EvalDerCoefs` returns 0 (l.131-136). -/
def EvalBernsteinDer (P : Nat) (inn : Nat → K) (x : K) : K :=
  match P with
  | 0 => ((0 : Nat) : K) * 0
  | Q + 1 => ((Q + 1 : Nat) : K) * evalDerCoefs Q Q inn x

/-- `EvalBernsteinDerBasis<T,P>`, Spline/Bernstein.hpp l.239-244.  For `P = 0`:
`Bernstein<-1,-1> = Binomial<-1,-1> * BernsteinX<-1> * BernsteinX<0> = 1 * 0 * 1` and the recursion anchor
does nothing. -/
def EvalBernsteinDerBasis (P : Nat) (inn : Nat → K) (x : K) : Nat → K :=
  match P with
  | 0 => upd inn 0 (((0 : Nat) : K) * (1 * 0 * 1))
  | Q + 1 => evalDerBasis Q Q (upd inn (Q + 1) (((Q + 1 : Nat) : K) * bernstein Q Q x)) x

/-- `EvalBernsteinDerBasisPEQ<T,P>`, Spline/Bernstein.hpp l.232-237. -/
def EvalBernsteinDerBasisPEQ (P : Nat) (inn : Nat → K) (x : K) : Nat → K :=
  match P with
  | 0 => upd inn 0 (inn 0 + ((0 : Nat) : K) * (1 * 0 * 1))
  | Q + 1 =>
      evalDerBasisPEQ Q Q
        (upd inn (Q + 1) (inn (Q + 1) + ((Q + 1 : Nat) : K) * bernstein Q Q x)) x

/-- `Constants::MaxP`, util/Constants.hpp l.22. -/
def MaxP : Nat := 20

/-- The template recursion pattern shared by all members of `PSpecificShapeFunctionHandler<P>`
(ShapeFunctions.hpp l.27-70, anchor l.72-103) and `PSpecificBasisHandler<P,Scalar>` (Basis.hpp l.208-286,
anchor l.289-347): `p == P ? f<P> : Handler<P-1>::member(p)`, anchor `f<0>` whatever `p` is.
`p` is a C `int`. -/
def dispatch {α : Type*} (f : Nat → α) : Nat → Int → α
  | 0, _ => f 0
  | P + 1, p => if p = ((P + 1 : Nat) : Int) then f (P + 1) else dispatch f P p

/-- `ShapeFunctionHandler::evalCoef`, ShapeFunctions.hpp l.30-33, l.105. -/
def handlerEvalCoef (p : Int) (ar : Nat → K) (x : K) : K :=
  dispatch (fun P => EvalBernstein P ar x) MaxP p

/-- `ShapeFunctionHandler::evalDerCoef`, ShapeFunctions.hpp l.34-37. -/
def handlerEvalDerCoef (p : Int) (ar : Nat → K) (x : K) : K :=
  dispatch (fun P => EvalBernsteinDer P ar x) MaxP p

/-- `ShapeFunctionHandler::evalBasis`, ShapeFunctions.hpp l.38-41. -/
def handlerEvalBasis (p : Int) (ar : Nat → K) (x : K) : Nat → K :=
  dispatch (fun P => EvalBernsteinBasis P ar x) MaxP p

/-- `ShapeFunctionHandler::evalDerBasis`, ShapeFunctions.hpp l.42-46. -/
def handlerEvalDerBasis (p : Int) (ar : Nat → K) (x : K) : Nat → K :=
  dispatch (fun P => EvalBernsteinDerBasis P ar x) MaxP p

/-- C loop `for (int i = 0; i < n; i++) body`. -/
def forLoop {σ : Type*} (n : Nat) (body : σ → Nat → σ) (s : σ) : σ :=
  (List.range n).foldl body s

/-- The stack buffer `double base[I]` before it is written: contents indeterminate, here an arbitrary
parameter `junk`. -/
abbrev Junk (K : Type*) := Nat → K

/-- `phi_<P>`, Basis.hpp l.57-65. -/
def phi (junk : Junk K) (P : Nat) (c : Nat → K) (w : K) (x : K) : Nat → K :=
  let I := P + 1
  let base := EvalBernsteinBasis P junk x
  forLoop I (fun c i => upd c i (c i + w * base i)) c

/-- `phi_dx_<P>`, Basis.hpp l.71-79. -/
def phiDx (junk : Junk K) (P : Nat) (c : Nat → K) (w : K) (x : K) : Nat → K :=
  let I := P + 1
  let base := EvalBernsteinDerBasis P junk x
  forLoop I (fun c i => upd c i (c i + w * base i)) c

/-- Double loop `for iy < I, for ix < I: c(iy*I+ix) += w * X[ix] * Y[iy]` shared by
`phiphi_`, `phiphi_dx_`, `phiphi_dy_`, Basis.hpp l.93-94, l.112-113, l.131-132. -/
def tensorLoop (I : Nat) (X Y : Nat → K) (w : K) (c : Nat → K) : Nat → K :=
  forLoop I (fun c iy =>
    forLoop I (fun c ix => upd c (iy * I + ix) (c (iy * I + ix) + w * X ix * Y iy)) c) c

/-- `phiphi_<P>`, Basis.hpp l.85-97. -/
def phiPhi (junk : Junk K) (P : Nat) (c : Nat → K) (w : K) (a : K × K) : Nat → K :=
  tensorLoop (P + 1) (EvalBernsteinBasis P junk a.1) (EvalBernsteinBasis P junk a.2) w c

/-- `phiphi_dx_<P>`, Basis.hpp l.104-116. -/
def phiPhiDx (junk : Junk K) (P : Nat) (c : Nat → K) (w : K) (a : K × K) : Nat → K :=
  tensorLoop (P + 1) (EvalBernsteinDerBasis P junk a.1) (EvalBernsteinBasis P junk a.2) w c

/-- `phiphi_dy_<P>`, Basis.hpp l.123-134. -/
def phiPhiDy (junk : Junk K) (P : Nat) (c : Nat → K) (w : K) (a : K × K) : Nat → K :=
  tensorLoop (P + 1) (EvalBernsteinBasis P junk a.1) (EvalBernsteinDerBasis P junk a.2) w c

/-- A matrix buffer `Eigen::Matrix<Scalar,Dynamic,Dynamic> *c`, entry assignment. -/
def upd2 (c : Nat → Nat → K) (i j : Nat) (v : K) : Nat → Nat → K :=
  fun i' j' => if i' = i ∧ j' = j then v else c i' j'

/-- Double loop `for i < n, for j < n: c(i+ro, j+co) += a[i]*b[j]`, Basis.hpp l.160-161 and
l.190-197. -/
def outerLoop (n ro co : Nat) (a b : Nat → K) (c : Nat → Nat → K) : Nat → Nat → K :=
  forLoop n (fun c i =>
    forLoop n (fun c j => upd2 c (i + ro) (j + co) (c (i + ro) (j + co) + a i * b j)) c) c

/-- Double loop `for iy < I, for ix < I: a[iy*I+ix] = w * X[ix] * Y[iy]`, Basis.hpp l.151-152. -/
def fillLoop (I : Nat) (X Y : Nat → K) (w : K) (a : Nat → K) : Nat → K :=
  forLoop I (fun a iy =>
    forLoop I (fun a ix => upd a (iy * I + ix) (w * X ix * Y iy)) a) a

/-- Double loop `for iy < I, for ix < I: b[iy*I+ix] = X[ix] * Y[iy]`, Basis.hpp l.157-158. -/
def fillLoop1 (I : Nat) (X Y : Nat → K) (b : Nat → K) : Nat → K :=
  forLoop I (fun b iy =>
    forLoop I (fun b ix => upd b (iy * I + ix) (X ix * Y iy)) b) b

/-- `Phi_times_Phi_<P>`, Basis.hpp l.141-164. -/
def phiTimesPhi (junk : Junk K) (P : Nat) (c : Nat → Nat → K) (w : K) (xi eta : K × K) :
    Nat → Nat → K :=
  let I := P + 1
  let a := fillLoop I (EvalBernsteinBasis P junk xi.1) (EvalBernsteinBasis P junk xi.2) w junk
  let b := fillLoop1 I (EvalBernsteinBasis P junk eta.1) (EvalBernsteinBasis P junk eta.2) junk
  outerLoop (I * I) 0 0 a b c

/-- `Div_Phi_times_Div_Phi_<P>`, Basis.hpp l.170-200. -/
def divPhiTimesDivPhi (junk : Junk K) (P : Nat) (c : Nat → Nat → K) (w : K) (xi eta : K × K) :
    Nat → Nat → K :=
  let I2 := (P + 1) * (P + 1)
  let z : Nat → K := fun _ => 0
  let a_dx := phiPhiDx junk P z w xi
  let a_dy := phiPhiDy junk P z w xi
  let b_dx := phiPhiDx junk P z 1 eta
  let b_dy := phiPhiDy junk P z 1 eta
  let c := outerLoop I2 0 0 a_dx b_dx c
  let c := outerLoop I2 0 I2 a_dx b_dy c
  let c := outerLoop I2 I2 0 a_dy b_dx c
  outerLoop I2 I2 I2 a_dy b_dy c

end Basis
end Bembel
