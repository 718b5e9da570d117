import Verif.Model.DiscretePotential
import Verif.Spec.Potential
import Verif.Lemmas.Omp
import Verif.Props.FunctionEvaluator
import Verif.Props.Kernels
/-!
# Property theorems C53: potential evaluation
-/

set_option linter.unusedSectionVars false

namespace Bembel.Props
open Finset Bembel.Mesh Bembel.Spec Bembel.FunctionEval Bembel.SuperSpace Bembel.Potential

variable {R : Type} [Field R] [Algebra ℝ R]

theorem sum_getD_list {M α : Type} [AddCommMonoid M] (f : α → M) (l : List α) :
    ∑ i ∈ range l.length, ((l[i]?).map f).getD 0 = (l.map f).sum := by
  induction l with
  | nil => simp
  | cons a l ih =>
    rw [List.length_cons, Finset.sum_range_succ', List.map_cons, List.sum_cons, ← ih, add_comm]
    simp

theorem finRange_update {n : Nat} {α : Type} (g : Fin n → α → α) (l : List (Fin n)) (hl : l.Nodup) (my : Fin n → α) :
    l.foldlM (fun my i => some (Function.update my i (g i (my i)))) my = some fun i => if i ∈ l then g i (my i) else my i := by
  induction l generalizing my with
  | nil => simp
  | cons a l ih =>
    rw [List.nodup_cons] at hl
    rw [List.foldlM_cons]
    simp only [Option.bind_eq_bind, Option.bind_some]
    rw [ih hl.2]
    congr 1
    funext i
    by_cases hi : i = a
    · subst hi; simp [hl.1]
    · simp [hi, Function.update_of_ne hi]

theorem list_sum_apply2 {ι κ α M : Type} [AddCommMonoid M] (c : α → ι → κ → M) (l : List α) (i : ι) (k : κ) :
    (l.map c).sum i k = (l.map fun a => c a i k).sum := by
  induction l with
  | nil => rfl
  | cons a l ih => rw [List.map_cons, List.sum_cons, List.map_cons, List.sum_cons, Pi.add_apply, Pi.add_apply, ih]

/-- The body of an element adds its contribution. -/
theorem elementBody_eq (junk : Nat → R) (pot : Pot R) (e : Evaluator R) (Q : Cubature ℝ) {n : Nat} (points : Fin n → V3) (a : Addr)
    (val : V3 → SurfPt → Nat → R) (h : ∀ x p, pot.integrand junk e a x p = some (val x p)) (my : Fin n → Fin pot.od → R) :
    elementBody junk pot e Q points a my = some (my + fun i (k : Fin pot.od) => ∑ j ∈ range Q.size,
      val (points i) (map2surface e.space.t e.space.geo a (Q.xi j) (getH e.space.t a * getH e.space.t a * Q.w j)) k) := by
  unfold elementBody
  have : ∀ m, (List.range m).foldlM (fun my j =>
    let h := getH e.space.t a
    let qp := map2surface e.space.t e.space.geo a (Q.xi j) (h * h * Q.w j)
    (List.finRange n).foldlM (fun my i => do
      let v ← pot.integrand junk e a (points i) qp
      some (Function.update my i fun k => my i k + v k)) my) my = some (my + fun i (k : Fin pot.od) => ∑ j ∈ range m,
      val (points i) (map2surface e.space.t e.space.geo a (Q.xi j) (getH e.space.t a * getH e.space.t a * Q.w j)) k) := by
    intro m
    induction m with
    | zero => simp; rfl
    | succ m ih =>
      rw [List.range_succ, List.foldlM_append, ih]
      simp only [Option.bind_eq_bind, Option.bind_some, List.foldlM_cons, List.foldlM_nil, h]
      rw [finRange_update (fun i z (k : Fin pot.od) => z k + val (points i) (map2surface e.space.t e.space.geo a (Q.xi m)
        (getH e.space.t a * getH e.space.t a * Q.w m)) k) _ (List.nodup_finRange n)]
      simp only [List.mem_finRange, if_true, Option.bind_some]
      show some _ = some _
      congr 1
      funext i k
      simp only [Pi.add_apply, sum_range_succ, add_assoc]
  exact this Q.size

/-- Every schedule gives the sum over all elements and nodes. -/
theorem potential_eq {V : Type} (near : V → V → Bool) (corner : Nat → Nat → V) (np M : Nat) (hP : 0 < np) (junk : Nat → R)
    (pot : Pot R) (e : Evaluator R) (ht : initElementTree near corner np M = some e.space.t) (Q : Cubature ℝ) {n : Nat}
    (points : Fin n → V3) (val : Addr → V3 → SurfPt → Nat → R)
    (h : ∀ a, e.space.t.id a < e.space.t.nElements → ∀ x p, pot.integrand junk e a x p = some (val a x p)) :
    ∃ els, elements e.space.t = some els ∧ ∀ S : Omp.Schedule e.space.t.nElements,
      Potential.evaluate junk pot e Q points S.sched = some fun i (k : Fin pot.od) => (els.map fun a => ∑ j ∈ range Q.size,
        val a (points i) (map2surface e.space.t e.space.geo a (Q.xi j) (getH e.space.t a * getH e.space.t a * Q.w j)) k).sum := by
  obtain ⟨t, j1, j2, els, j3, j4, j5, j6⟩ := C20_uniform_mesh (K := ℝ) near corner np M hP
  obtain rfl : e.space.t = t := Option.some.inj (ht.symm.trans j1)
  refine ⟨els, j3, ?_⟩
  intro S
  unfold Potential.evaluate
  rw [j3]
  simp only [Option.bind_eq_bind, Option.bind_some]
  have hid : ∀ a ∈ els, e.space.t.id a < e.space.t.nElements := by
    intro a ha
    obtain ⟨m, hm1, hm2⟩ := List.getElem_of_mem ha
    rw [(j6 m a (by rw [List.getElem?_eq_getElem hm1, hm2])).1, j2, ← j4]; exact hm1
  let c : Addr → Fin n → Fin pot.od → R := fun a i k => ∑ j ∈ range Q.size,
        val a (points i) (map2surface e.space.t e.space.geo a (Q.xi j) (getH e.space.t a * getH e.space.t a * Q.w j)) k
  have hadds : Omp.Adds (region junk pot e Q points els) (fun _ => True) (fun p => p)
      (fun i => ((els[i]?).map c).getD 0) := by
    refine ⟨trivial, rfl, ?_, fun _ _ => rfl⟩
    intro i hi p _
    have hi : i < els.length := hi
    refine ⟨_, ?_, trivial, rfl⟩
    simp only [region, List.getElem?_eq_getElem hi, Option.bind_eq_bind, Option.bind_some, Option.map_some, Option.getD_some]
    exact elementBody_eq junk pot e Q points els[i] (val els[i]) (h _ (hid _ (List.getElem_mem hi))) p
  have hex := Omp.exec_eq (0 : Fin n → Fin pot.od → R) hadds ⟨S.T, S.pos, S.sched, by
    intro t
    have hlen : els.length = e.space.t.nElements := by rw [j4, j2]
    show els.length + 1 ≤ S.sched.count t
    rw [hlen]
    exact S.all t⟩
  refine hex.trans ?_
  rw [zero_add]
  have := sum_getD_list c els
  show some (∑ i ∈ range els.length, _) = _
  rw [this]
  congr 1
  funext i k
  exact list_sum_apply2 c els i k

/-- The general form: the integrand is weight times `g`. -/
theorem potential_quad {V : Type} (near : V → V → Bool) (corner : Nat → Nat → V) (np M : Nat) (hP : 0 < np) (vd : Nat) (hvd : 0 < vd)
    (e0 : Evaluator R) (space : Space R) (ht : initElementTree near corner np M = some space.t)
    (hT : space.trans.rows = vd * ((space.P + 1) * (space.P + 1) * space.t.nElements)) (f : EMat R)
    (hf : f.rows = space.trans.cols) (hc : f.cols = 1) (junk : Nat → R) (pot : Pot R) (g : Addr → V3 → SurfPt → Fin pot.od → R)
    (hg : ∀ e, Holds vd e f → e.space = space → ∀ a, e.space.t.id a < e.space.t.nElements → ∀ x xi w y dx dy, ∃ v,
      pot.integrand junk e a x ⟨xi, w, y, dx, dy⟩ = some v ∧ ∀ k : Fin pot.od, v k = algebraMap ℝ R w * g a x ⟨xi, 1, y, dx, dy⟩ k) :
    ∃ e els, initWith vd e0 space f = some e ∧ elements space.t = some els ∧
      ∀ (Q : Cubature ℝ) (n : Nat) (x : Fin n → V3) (S : Omp.Schedule space.t.nElements),
        Potential.evaluate junk pot e Q x S.sched = some fun i k =>
          surfaceQuad space.t space.geo Q els fun a p => g a (x i) p k := by
  obtain ⟨e, h1, h2, rfl, h4, h5⟩ := initWith_eq near corner np M hP vd hvd e0 space ht hT f hf hc
  have key := fun (Q : Cubature ℝ) (n : Nat) (x : Fin n → V3) =>
    potential_eq near corner np M hP junk pot e ht Q x (fun a x p => (pot.integrand junk e a x p).getD 0) (by
        intro a ha x p
        obtain ⟨v, hv, -⟩ := hg e h2 rfl a ha x p.xi p.w p.f p.dx p.dy
        have : pot.integrand junk e a x p = some v := hv
        rw [this]; rfl)
  obtain ⟨els, k1, -⟩ := key ⟨0, 0, 0⟩ 0 (fun _ => 0)
  refine ⟨e, els, h1, k1, ?_⟩
  intro Q n x S
  obtain ⟨els', k1', k2⟩ := key Q n x
  obtain rfl : els = els' := Option.some.inj (k1.symm.trans k1')
  refine (k2 S).trans ?_
  congr 1
  funext i k
  obtain ⟨t, j1, j2, L, j3, j4, j5, j6⟩ := C20_uniform_mesh (K := ℝ) near corner np M hP
  obtain rfl : e.space.t = t := Option.some.inj (ht.symm.trans j1)
  obtain rfl : els = L := Option.some.inj (k1.symm.trans j3)
  unfold surfaceQuad
  congr 1
  refine List.map_congr_left fun a ha => sum_congr rfl fun j _ => ?_
  have hid : e.space.t.id a < e.space.t.nElements := by
    obtain ⟨m, hm1, hm2⟩ := List.getElem_of_mem ha
    rw [(j6 m a (by rw [List.getElem?_eq_getElem hm1, hm2])).1, j2, ← j4]; exact hm1
  rw [pow_two]
  simp only [map2surface, elementPoint]
  obtain ⟨v, hv1, hv2⟩ := hg e h2 rfl a hid (x i) (Q.xi j) (getH e.space.t a * getH e.space.t a * Q.w j) _ _ _
  rw [hv1, Option.getD_some, hv2]

/-- C53, single layer potentials with a real kernel (Laplace, homogenised Laplace): for every vector `f` of degrees of freedom, every
quadrature rule, all points and every schedule of the threads, the result is the quadrature on the surface of
kernel times function times area element. -/
theorem C53_single_layer {V : Type} (near : V → V → Bool) (corner : Nat → Nat → V) (np M : Nat) (hP : 0 < np)
    (e0 : Evaluator R) (space : Space R) (ht : initElementTree near corner np M = some space.t)
    (hT : space.trans.rows = 1 * ((space.P + 1) * (space.P + 1) * space.t.nElements)) (f : EMat R)
    (hf : f.rows = space.trans.cols) (hc : f.cols = 1) (junk : Nat → R) (kernel : V3 → V3 → ℝ) :
    ∃ e els, initWith 1 e0 space f = some e ∧ elements space.t = some els ∧
      ∀ (Q : Cubature ℝ) (n : Nat) (x : Fin n → V3) (S : Omp.Schedule space.t.nElements),
        Potential.evaluate junk (singleLayerReal kernel) e Q x S.sched = some fun i _ =>
          surfaceQuad space.t space.geo Q els fun a p => algebraMap ℝ R (kernel (x i) p.f * ‖cross3 p.dx p.dy‖) *
            discreteFunction space.trans f space.t.nElements space.P 0 (space.t.id a) (getH space.t a) p.xi := by
  refine potential_quad near corner np M hP 1 (by omega) e0 space ht hT f hf hc junk (singleLayerReal kernel)
    (fun a x p _ => algebraMap ℝ R (kernel x p.f * ‖cross3 p.dx p.dy‖) *
      discreteFunction space.trans f space.t.nElements space.P 0 (space.t.id a) (getH space.t a) p.xi) ?_
  rintro e he rfl a ha x xi w y dx dy
  simp only [singleLayerReal, evaluate_eq junk he ha, Option.bind_eq_bind, Option.bind_some]
  refine ⟨_, rfl, fun _ => ?_⟩
  simp only [map_mul]
  ring

/-- C53, Laplace double layer potential: the kernel is the derivative of the fundamental solution in direction of the (not normalised)
normal `dx × dy`, which contains the area element. -/
theorem C53_laplace_double_layer {V : Type} (near : V → V → Bool) (corner : Nat → Nat → V) (np M : Nat) (hP : 0 < np)
    (e0 : Evaluator R) (space : Space R) (ht : initElementTree near corner np M = some space.t)
    (hT : space.trans.rows = 1 * ((space.P + 1) * (space.P + 1) * space.t.nElements)) (f : EMat R)
    (hf : f.rows = space.trans.cols) (hc : f.cols = 1) (junk : Nat → R) :
    ∃ e els, initWith 1 e0 space f = some e ∧ elements space.t = some els ∧
      ∀ (Q : Cubature ℝ) (n : Nat) (x : Fin n → V3) (S : Omp.Schedule space.t.nElements),
        Potential.evaluate junk laplaceDL e Q x S.sched = some fun i _ =>
          surfaceQuad space.t space.geo Q els fun a p => algebraMap ℝ R (Kernel.laplaceDL (x i) p.f (cross3 p.dx p.dy)) *
            discreteFunction space.trans f space.t.nElements space.P 0 (space.t.id a) (getH space.t a) p.xi := by
  refine potential_quad near corner np M hP 1 (by omega) e0 space ht hT f hf hc junk laplaceDL
    (fun a x p _ => algebraMap ℝ R (Kernel.laplaceDL x p.f (cross3 p.dx p.dy)) *
      discreteFunction space.trans f space.t.nElements space.P 0 (space.t.id a) (getH space.t a) p.xi) ?_
  rintro e he rfl a ha x xi w y dx dy
  simp only [laplaceDL, evaluate_eq junk he ha, Option.bind_eq_bind, Option.bind_some]
  refine ⟨_, rfl, fun _ => ?_⟩
  rw [(C50_adjoint 0 x y (cross3 dx dy)).2.2.1]
  ring

/-- C53, gradient of the Laplace single layer potential. -/
theorem C53_laplace_gradient {V : Type} (near : V → V → Bool) (corner : Nat → Nat → V) (np M : Nat) (hP : 0 < np)
    (e0 : Evaluator R) (space : Space R) (ht : initElementTree near corner np M = some space.t)
    (hT : space.trans.rows = 1 * ((space.P + 1) * (space.P + 1) * space.t.nElements)) (f : EMat R)
    (hf : f.rows = space.trans.cols) (hc : f.cols = 1) (junk : Nat → R) :
    ∃ e els, initWith 1 e0 space f = some e ∧ elements space.t = some els ∧
      ∀ (Q : Cubature ℝ) (n : Nat) (x : Fin n → V3) (S : Omp.Schedule space.t.nElements),
        Potential.evaluate junk laplaceSLGrad e Q x S.sched = some fun i (k : Fin 3) =>
          surfaceQuad space.t space.geo Q els fun a p => algebraMap ℝ R (Kernel.laplaceSLGrad (x i) p.f k * ‖cross3 p.dx p.dy‖) *
            discreteFunction space.trans f space.t.nElements space.P 0 (space.t.id a) (getH space.t a) p.xi := by
  refine potential_quad near corner np M hP 1 (by omega) e0 space ht hT f hf hc junk laplaceSLGrad
    (fun a x p (k : Fin 3) => algebraMap ℝ R (Kernel.laplaceSLGrad x p.f k * ‖cross3 p.dx p.dy‖) *
      discreteFunction space.trans f space.t.nElements space.P 0 (space.t.id a) (getH space.t a) p.xi) ?_
  rintro e he rfl a ha x xi w y dx dy
  simp only [laplaceSLGrad, evaluate_eq junk he ha, Option.bind_eq_bind, Option.bind_some]
  refine ⟨_, rfl, fun (k : Fin 3) => ?_⟩
  rw [dif_pos k.2]
  simp only [map_mul, Fin.eta]
  ring

/-- C53, Helmholtz potentials. -/
theorem C53_helmholtz {V : Type} (near : V → V → Bool) (corner : Nat → Nat → V) (np M : Nat) (hP : 0 < np)
    (e0 : Evaluator ℂ) (space : Space ℂ) (ht : initElementTree near corner np M = some space.t)
    (hT : space.trans.rows = 1 * ((space.P + 1) * (space.P + 1) * space.t.nElements)) (f : EMat ℂ)
    (hf : f.rows = space.trans.cols) (hc : f.cols = 1) (junk : Nat → ℂ) (κ : ℂ) :
    ∃ e els, initWith 1 e0 space f = some e ∧ elements space.t = some els ∧
      ∀ (Q : Cubature ℝ) (n : Nat) (x : Fin n → V3) (S : Omp.Schedule space.t.nElements),
        (Potential.evaluate junk (helmholtzSL κ) e Q x S.sched = some fun i _ =>
          surfaceQuad space.t space.geo Q els fun a p => Kernel.helmholtz κ (x i) p.f * (‖cross3 p.dx p.dy‖ : ℂ) *
            discreteFunction space.trans f space.t.nElements space.P 0 (space.t.id a) (getH space.t a) p.xi) ∧
        (Potential.evaluate junk (helmholtzDL κ) e Q x S.sched = some fun i _ =>
          surfaceQuad space.t space.geo Q els fun a p => Kernel.helmholtzDL κ (x i) p.f (cross3 p.dx p.dy) *
            discreteFunction space.trans f space.t.nElements space.P 0 (space.t.id a) (getH space.t a) p.xi) := by
  obtain ⟨e, els, h1, h2, h3⟩ := potential_quad near corner np M hP 1 (by omega) e0 space ht hT f hf hc junk (helmholtzSL κ)
    (fun a x p _ => Kernel.helmholtz κ x p.f * (‖cross3 p.dx p.dy‖ : ℂ) *
      discreteFunction space.trans f space.t.nElements space.P 0 (space.t.id a) (getH space.t a) p.xi) (by
    rintro e he rfl a ha x xi w y dx dy
    simp only [helmholtzSL, evaluate_eq junk he ha, Option.bind_eq_bind, Option.bind_some]
    refine ⟨_, rfl, fun _ => ?_⟩
    simp only [Complex.coe_algebraMap]
    ring)
  obtain ⟨e', els', h1', h2', h3'⟩ := potential_quad near corner np M hP 1 (by omega) e0 space ht hT f hf hc junk (helmholtzDL κ)
    (fun a x p _ => Kernel.helmholtzDL κ x p.f (cross3 p.dx p.dy) *
      discreteFunction space.trans f space.t.nElements space.P 0 (space.t.id a) (getH space.t a) p.xi) (by
    rintro e he rfl a ha x xi w y dx dy
    simp only [helmholtzDL, evaluate_eq junk he ha, Option.bind_eq_bind, Option.bind_some]
    refine ⟨_, rfl, fun _ => ?_⟩
    simp only [Complex.coe_algebraMap]
    ring)
  obtain rfl : e = e' := Option.some.inj (h1.symm.trans h1')
  obtain rfl : els = els' := Option.some.inj (h2.symm.trans h2')
  exact ⟨e, els, h1, h2, fun Q n x S => ⟨h3 Q n x S, h3' Q n x S⟩⟩

/-- C53, Maxwell single layer potential: `∫ (G j + 1 / k^2 grad G div j)`, the field `j` and its divergence with respect to the patch
coordinates containing the area element. -/
theorem C53_maxwell {V : Type} (near : V → V → Bool) (corner : Nat → Nat → V) (np M : Nat) (hP : 0 < np)
    (e0 : Evaluator ℂ) (space : Space ℂ) (ht : initElementTree near corner np M = some space.t)
    (hT : space.trans.rows = 2 * ((space.P + 1) * (space.P + 1) * space.t.nElements)) (f : EMat ℂ)
    (hf : f.rows = space.trans.cols) (hc : f.cols = 1) (junk : Nat → ℂ) (κ : ℂ) :
    ∃ e els, initWith 2 e0 space f = some e ∧ elements space.t = some els ∧
      ∀ (Q : Cubature ℝ) (n : Nat) (x : Fin n → V3) (S : Omp.Schedule space.t.nElements),
        Potential.evaluate junk (maxwellSL κ) e Q x S.sched = some fun i (k : Fin 3) =>
          surfaceQuad space.t space.geo Q els fun a p =>
            Kernel.helmholtz κ (x i) p.f *
              discreteField space.trans f space.t.nElements space.P (space.t.id a) (getH space.t a) p.xi p.dx p.dy k +
            1 / κ ^ 2 * Kernel.maxwellGrad κ (x i) p.f k *
              discreteDiv space.trans f space.t.nElements space.P (space.t.id a) (getH space.t a) p.xi := by
  refine potential_quad near corner np M hP 2 (by omega) e0 space ht hT f hf hc junk (maxwellSL κ)
    (fun a x p (k : Fin 3) => Kernel.helmholtz κ x p.f *
              discreteField space.trans f space.t.nElements space.P (space.t.id a) (getH space.t a) p.xi p.dx p.dy k +
            1 / κ ^ 2 * Kernel.maxwellGrad κ x p.f k *
              discreteDiv space.trans f space.t.nElements space.P (space.t.id a) (getH space.t a) p.xi) ?_
  rintro e he rfl a ha x xi w y dx dy
  simp only [maxwellSL, evaluateVector_eq junk he ha, evaluateDiv_eq junk he ha, Option.bind_eq_bind, Option.bind_some]
  refine ⟨_, rfl, fun (k : Fin 3) => ?_⟩
  rw [dif_pos k.2, pow_two]
  simp only [Fin.eta, Complex.coe_algebraMap]
  ring

/-- `α f + β g`. -/
def lin (α : R) (f : EMat R) (β : R) (g : EMat R) : EMat R := ⟨f.rows, f.cols, fun i j => α * f.at' i j + β * g.at' i j⟩

theorem localCoeff_lin (T f g : EMat R) (α β : R) (nE P d n i : Nat) :
    localCoeff T (lin α f β g) nE P d n i = α * localCoeff T f nE P d n i + β * localCoeff T g nE P d n i := by
  simp only [localCoeff, lin, mul_sum, ← sum_add_distrib]
  refine sum_congr rfl fun c _ => ?_
  ring

theorem discreteFunction_lin (T f g : EMat R) (α β : R) (nE P d n : Nat) (h : ℝ) (s : ℝ × ℝ) :
    discreteFunction T (lin α f β g) nE P d n h s = α * discreteFunction T f nE P d n h s + β * discreteFunction T g nE P d n h s := by
  simp only [discreteFunction, localCoeff_lin, mul_sum, ← sum_add_distrib]
  refine sum_congr rfl fun c _ => ?_
  ring

theorem discreteField_lin (T f g : EMat R) (α β : R) (nE P n : Nat) (h : ℝ) (s : ℝ × ℝ) (dx dy : V3) (k : Fin 3) :
    discreteField T (lin α f β g) nE P n h s dx dy k =
      α * discreteField T f nE P n h s dx dy k + β * discreteField T g nE P n h s dx dy k := by
  simp only [discreteField, discreteFunction_lin]
  ring

theorem discreteDiv_lin (T f g : EMat R) (α β : R) (nE P n : Nat) (h : ℝ) (s : ℝ × ℝ) :
    discreteDiv T (lin α f β g) nE P n h s = α * discreteDiv T f nE P n h s + β * discreteDiv T g nE P n h s := by
  simp only [discreteDiv, localCoeff_lin, mul_sum, ← sum_add_distrib]
  refine sum_congr rfl fun c _ => ?_
  ring

theorem surfaceQuad_lin (t : Mesh.Tree ℝ) (geo : Nat → ℝ × ℝ → V3 × V3 × V3) (Q : Cubature ℝ) (els : List Addr) (α β : R)
    (u v w : Addr → SurfPt → R) (h : ∀ a p, w a p = α * u a p + β * v a p) :
    surfaceQuad t geo Q els w = α * surfaceQuad t geo Q els u + β * surfaceQuad t geo Q els v := by
  unfold surfaceQuad
  rw [← List.sum_map_mul_left, ← List.sum_map_mul_left, ← List.sum_map_add]
  congr 1
  refine List.map_congr_left fun a _ => ?_
  rw [mul_sum, mul_sum, ← sum_add_distrib]
  refine sum_congr rfl fun j _ => ?_
  rw [h]
  ring

/-- The potential of a linear combination of densities is the linear combination of the potentials, whatever the schedules. -/
def LinearIn (vd : Nat) (space : Space R) (pot : Pot R) : Prop :=
  ∀ (e0 : Evaluator R) (junk : Nat → R) (α β : R) (f g : EMat R), f.rows = space.trans.cols → f.cols = 1 →
    g.rows = space.trans.cols → g.cols = 1 →
    ∃ e₁ e₂ e, initWith vd e0 space f = some e₁ ∧ initWith vd e0 space g = some e₂ ∧ initWith vd e0 space (lin α f β g) = some e ∧
      ∀ (Q : Cubature ℝ) (n : Nat) (x : Fin n → V3) (S₁ S₂ S : Omp.Schedule space.t.nElements), ∃ u v,
        Potential.evaluate junk pot e₁ Q x S₁.sched = some u ∧ Potential.evaluate junk pot e₂ Q x S₂.sched = some v ∧
        Potential.evaluate junk pot e Q x S.sched = some fun i k => α * u i k + β * v i k

/-- C53: potentials are linear in the vector of degrees of freedom (real kernels). -/
theorem C53_linear {V : Type} (near : V → V → Bool) (corner : Nat → Nat → V) (np M : Nat) (hP : 0 < np) (space : Space R)
    (ht : initElementTree near corner np M = some space.t)
    (hT : space.trans.rows = 1 * ((space.P + 1) * (space.P + 1) * space.t.nElements)) (kernel : V3 → V3 → ℝ) :
    LinearIn 1 space (singleLayerReal kernel) ∧ LinearIn 1 space laplaceDL ∧ LinearIn 1 space laplaceSLGrad := by
  refine ⟨?_, ?_, ?_⟩ <;> intro e0 junk α β f g hf hf' hg hg'
  · obtain ⟨e₁, L, a1, a2, a3⟩ := C53_single_layer near corner np M hP e0 space ht hT f hf hf' junk kernel
    obtain ⟨e₂, L₂, b1, b2, b3⟩ := C53_single_layer near corner np M hP e0 space ht hT g hg hg' junk kernel
    obtain ⟨e, L₃, c1, c2, c3⟩ := C53_single_layer near corner np M hP e0 space ht hT (lin α f β g) hf hf' junk kernel
    obtain rfl : L = L₂ := Option.some.inj (a2.symm.trans b2)
    obtain rfl : L = L₃ := Option.some.inj (a2.symm.trans c2)
    refine ⟨e₁, e₂, e, a1, b1, c1, fun Q n x S₁ S₂ S => ⟨_, _, a3 Q n x S₁, b3 Q n x S₂, (c3 Q n x S).trans ?_⟩⟩
    congr 1; funext i k
    exact surfaceQuad_lin _ _ _ _ _ _ _ _ _ fun a p => by rw [discreteFunction_lin]; ring
  · obtain ⟨e₁, L, a1, a2, a3⟩ := C53_laplace_double_layer near corner np M hP e0 space ht hT f hf hf' junk
    obtain ⟨e₂, L₂, b1, b2, b3⟩ := C53_laplace_double_layer near corner np M hP e0 space ht hT g hg hg' junk
    obtain ⟨e, L₃, c1, c2, c3⟩ := C53_laplace_double_layer near corner np M hP e0 space ht hT (lin α f β g) hf hf' junk
    obtain rfl : L = L₂ := Option.some.inj (a2.symm.trans b2)
    obtain rfl : L = L₃ := Option.some.inj (a2.symm.trans c2)
    refine ⟨e₁, e₂, e, a1, b1, c1, fun Q n x S₁ S₂ S => ⟨_, _, a3 Q n x S₁, b3 Q n x S₂, (c3 Q n x S).trans ?_⟩⟩
    congr 1; funext i k
    exact surfaceQuad_lin _ _ _ _ _ _ _ _ _ fun a p => by rw [discreteFunction_lin]; ring
  · obtain ⟨e₁, L, a1, a2, a3⟩ := C53_laplace_gradient near corner np M hP e0 space ht hT f hf hf' junk
    obtain ⟨e₂, L₂, b1, b2, b3⟩ := C53_laplace_gradient near corner np M hP e0 space ht hT g hg hg' junk
    obtain ⟨e, L₃, c1, c2, c3⟩ := C53_laplace_gradient near corner np M hP e0 space ht hT (lin α f β g) hf hf' junk
    obtain rfl : L = L₂ := Option.some.inj (a2.symm.trans b2)
    obtain rfl : L = L₃ := Option.some.inj (a2.symm.trans c2)
    refine ⟨e₁, e₂, e, a1, b1, c1, fun Q n x S₁ S₂ S => ⟨_, _, a3 Q n x S₁, b3 Q n x S₂, (c3 Q n x S).trans ?_⟩⟩
    congr 1; funext i k
    exact surfaceQuad_lin _ _ _ _ _ _ _ _ _ fun a p => by rw [discreteFunction_lin]; ring

/-- C53: Helmholtz potentials are linear in the vector of degrees of freedom. -/
theorem C53_linear_helmholtz {V : Type} (near : V → V → Bool) (corner : Nat → Nat → V) (np M : Nat) (hP : 0 < np) (space : Space ℂ)
    (ht : initElementTree near corner np M = some space.t)
    (hT : space.trans.rows = 1 * ((space.P + 1) * (space.P + 1) * space.t.nElements)) (κ : ℂ) :
    LinearIn 1 space (helmholtzSL κ) ∧ LinearIn 1 space (helmholtzDL κ) := by
  refine ⟨?_, ?_⟩ <;> intro e0 junk α β f g hf hf' hg hg'
  all_goals
    obtain ⟨e₁, L, a1, a2, a3⟩ := C53_helmholtz near corner np M hP e0 space ht hT f hf hf' junk κ
    obtain ⟨e₂, L₂, b1, b2, b3⟩ := C53_helmholtz near corner np M hP e0 space ht hT g hg hg' junk κ
    obtain ⟨e, L₃, c1, c2, c3⟩ := C53_helmholtz near corner np M hP e0 space ht hT (lin α f β g) hf hf' junk κ
    obtain rfl : L = L₂ := Option.some.inj (a2.symm.trans b2)
    obtain rfl : L = L₃ := Option.some.inj (a2.symm.trans c2)
  · refine ⟨e₁, e₂, e, a1, b1, c1, fun Q n x S₁ S₂ S => ⟨_, _, (a3 Q n x S₁).1, (b3 Q n x S₂).1, (c3 Q n x S).1.trans ?_⟩⟩
    congr 1; funext i k
    exact surfaceQuad_lin _ _ _ _ _ _ _ _ _ fun a p => by rw [discreteFunction_lin]; ring
  · refine ⟨e₁, e₂, e, a1, b1, c1, fun Q n x S₁ S₂ S => ⟨_, _, (a3 Q n x S₁).2, (b3 Q n x S₂).2, (c3 Q n x S).2.trans ?_⟩⟩
    congr 1; funext i k
    exact surfaceQuad_lin _ _ _ _ _ _ _ _ _ fun a p => by rw [discreteFunction_lin]; ring

/-- C53: the Maxwell potential is linear in the vector of degrees of freedom. -/
theorem C53_linear_maxwell {V : Type} (near : V → V → Bool) (corner : Nat → Nat → V) (np M : Nat) (hP : 0 < np) (space : Space ℂ)
    (ht : initElementTree near corner np M = some space.t)
    (hT : space.trans.rows = 2 * ((space.P + 1) * (space.P + 1) * space.t.nElements)) (κ : ℂ) :
    LinearIn 2 space (maxwellSL κ) := by
  intro e0 junk α β f g hf hf' hg hg'
  obtain ⟨e₁, L, a1, a2, a3⟩ := C53_maxwell near corner np M hP e0 space ht hT f hf hf' junk κ
  obtain ⟨e₂, L₂, b1, b2, b3⟩ := C53_maxwell near corner np M hP e0 space ht hT g hg hg' junk κ
  obtain ⟨e, L₃, c1, c2, c3⟩ := C53_maxwell near corner np M hP e0 space ht hT (lin α f β g) hf hf' junk κ
  obtain rfl : L = L₂ := Option.some.inj (a2.symm.trans b2)
  obtain rfl : L = L₃ := Option.some.inj (a2.symm.trans c2)
  refine ⟨e₁, e₂, e, a1, b1, c1, fun Q n x S₁ S₂ S => ⟨_, _, a3 Q n x S₁, b3 Q n x S₂, (c3 Q n x S).trans ?_⟩⟩
  congr 1; funext i k
  exact surfaceQuad_lin _ _ _ _ _ _ _ _ _ fun a p => by rw [discreteField_lin, discreteDiv_lin]; ring

end Bembel.Props
