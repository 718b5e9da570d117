import Verif.Lemmas.Motion
import Verif.Model.DiscretePotential
import Verif.Model.LinearForm
/-!
# Linear forms, local operators and potentials of a moved surface
-/

namespace Bembel.Spec.Motion
open Mesh SuperSpace FunctionEval

variable {R : Type} [Field R] [Algebra ℝ R] (m : Motion)

/-- The rotation of a vector with scalars in `R`. -/
noncomputable def rotR (g : Fin 3 → R) : Fin 3 → R := fun k => ∑ l, algebraMap ℝ R (m.Q k l) * g l

theorem orthR (i j : Fin 3) : algebraMap ℝ R (m.Q 0 i) * algebraMap ℝ R (m.Q 0 j) + algebraMap ℝ R (m.Q 1 i) * algebraMap ℝ R (m.Q 1 j) +
    algebraMap ℝ R (m.Q 2 i) * algebraMap ℝ R (m.Q 2 j) = if i = j then 1 else 0 := by
  have := congrArg (algebraMap ℝ R) (m.orth_apply i j)
  simp only [map_add, map_mul] at this
  rw [this]
  split <;> simp

theorem rot_apply (u : V3) (k : Fin 3) : m.rot u k = m.Q k 0 * u 0 + m.Q k 1 * u 1 + m.Q k 2 * u 2 := by
  simp only [rot, Fin.sum_univ_three]

theorem dot_rot (u : V3) (g : Fin 3 → R) : ∑ k, algebraMap ℝ R (m.rot u k) * m.rotR g k = ∑ k, algebraMap ℝ R (u k) * g k := by
  simp only [Fin.sum_univ_three, rot_apply, rotR, map_add, map_mul]
  have h00 := m.orthR (R := R) 0 0
  have h01 := m.orthR (R := R) 0 1
  have h02 := m.orthR (R := R) 0 2
  have h11 := m.orthR (R := R) 1 1
  have h12 := m.orthR (R := R) 1 2
  have h22 := m.orthR (R := R) 2 2
  simp at h00 h01 h02 h11 h12 h22
  set u0 := algebraMap ℝ R (u 0)
  set u1 := algebraMap ℝ R (u 1)
  set u2 := algebraMap ℝ R (u 2)
  linear_combination u0 * g 0 * h00 + (u0 * g 1 + u1 * g 0) * h01 + (u0 * g 2 + u2 * g 0) * h02 + u1 * g 1 * h11 +
    (u1 * g 2 + u2 * g 1) * h12 + u2 * g 2 * h22

theorem cross_rotR (cj : R →ₐ[ℝ] R) (g : Fin 3 → R) (n : V3) :
    LinearForm.crossE cj (m.rotR g) (m.rot n) = m.rotR (LinearForm.crossE cj g n) := by
  have h := fun i j => congrArg (algebraMap ℝ R) (congrFun (congrFun m.adjugate_eq j) i)
  simp only [Matrix.transpose_apply, Matrix.adjugate_fin_three, Matrix.of_apply] at h
  funext k
  fin_cases k
  · have e0 := h 0 0; have e1 := h 0 1; have e2 := h 0 2
    simp at e0 e1 e2
    simp [LinearForm.crossE, rotR, Fin.sum_univ_three, rot_apply]
    rw [← e0, ← e1, ← e2]; ring
  · have e0 := h 1 0; have e1 := h 1 1; have e2 := h 1 2
    simp at e0 e1 e2
    simp [LinearForm.crossE, rotR, Fin.sum_univ_three, rot_apply]
    rw [← e0, ← e1, ← e2]; ring
  · have e0 := h 2 0; have e1 := h 2 1; have e2 := h 2 2
    simp at e0 e1 e2
    simp [LinearForm.crossE, rotR, Fin.sum_univ_three, rot_apply]
    rw [← e0, ← e1, ← e2]; ring

/-! ## Linear forms -/

theorem linearForm_moved (junk : Nat → R) (form form' : LinearForm.Form R) (hvd : form'.vd = form.vd)
    (h : ∀ P p c, form'.integrand junk P (m.point p) c = form.integrand junk P p c) (s : Space R) (Q : Cubature ℝ) :
    LinearForm.compute junk form' (m.space s) Q = LinearForm.compute junk form s Q := by
  have he : ∀ a, LinearForm.elementVec junk form' (m.space s) Q a = LinearForm.elementVec junk form s Q a := by
    intro a
    unfold LinearForm.elementVec
    simp only [space, show ∀ x w, map2surface s.t (m.geometry s.geo) a x w = m.point (map2surface s.t s.geo a x w) from fun _ _ => rfl, h]
  have he' := funext he
  obtain ⟨vd, i⟩ := form
  obtain ⟨vd', i'⟩ := form'
  obtain rfl : vd' = vd := hvd
  unfold LinearForm.compute
  rw [he']
  rfl

theorem dirichlet_moved (junk : Nat → R) (g g' : V3 → R) (h : ∀ x, g' (m.pos x) = g x) (P : Nat) (p : SurfPt) (c : Nat → Nat → R) :
    (LinearForm.dirichlet g').integrand junk P (m.point p) c = (LinearForm.dirichlet g).integrand junk P p c := by
  simp only [LinearForm.dirichlet, point, h, cross_rot, norm_rot]

theorem neumann_moved (junk : Nat → R) (g g' : V3 → Fin 3 → R) (h : ∀ x, g' (m.pos x) = m.rotR (g x)) (P : Nat) (p : SurfPt)
    (c : Nat → Nat → R) :
    (LinearForm.neumann g').integrand junk P (m.point p) c = (LinearForm.neumann g).integrand junk P p c := by
  simp only [LinearForm.neumann, point, h, cross_rot, dot_rot]

theorem addTangential_moved (junk : Nat → R) (P : Nat) (p : SurfPt) (tc : Fin 3 → R) (c : Nat → Nat → R) :
    LinearForm.addTangential junk P (m.point p) (m.rotR tc) c = LinearForm.addTangential junk P p tc c := by
  simp only [LinearForm.addTangential, point, dot_rot]

theorem tangential_moved (junk : Nat → R) (cj : R →ₐ[ℝ] R) (g g' : V3 → Fin 3 → R) (h : ∀ x, g' (m.pos x) = m.rotR (g x)) (P : Nat)
    (p : SurfPt) (c : Nat → Nat → R) :
    (LinearForm.tangential cj g').integrand junk P (m.point p) c = (LinearForm.tangential cj g).integrand junk P p c := by
  simp only [LinearForm.tangential]
  rw [← m.addTangential_moved junk P p]
  congr 1
  funext k
  simp only [point, h, cross_rot, normalized_rot, cross_rotR, rotR, Finset.sum_mul, mul_assoc]

theorem rotatedTangential_moved (junk : Nat → R) (cj : R →ₐ[ℝ] R) (g g' : V3 → Fin 3 → R) (h : ∀ x, g' (m.pos x) = m.rotR (g x)) (P : Nat)
    (p : SurfPt) (c : Nat → Nat → R) :
    (LinearForm.rotatedTangential cj g').integrand junk P (m.point p) c = (LinearForm.rotatedTangential cj g).integrand junk P p c := by
  have hc : ∀ n : V3, ∑ k, cj (m.rotR (g p.f) k) * algebraMap ℝ R (m.rot n k) = ∑ k, cj (g p.f k) * algebraMap ℝ R (n k) := by
    intro n
    have := m.dot_rot n (fun k => cj (g p.f k))
    simp only [mul_comm (algebraMap ℝ R (n _))] at this
    rw [← this]
    refine Finset.sum_congr rfl fun k _ => ?_
    simp only [rotR, map_sum, map_mul, AlgHom.commutes, mul_comm]
  simp only [LinearForm.rotatedTangential]
  rw [← m.addTangential_moved junk P p]
  congr 1
  funext k
  simp only [point, h, cross_rot, normalized_rot, hc]
  simp only [rotR, rot_apply, Fin.sum_univ_three, map_add, map_mul]
  ring

/-! ## Local operators -/

theorem localOperator_moved (junk : Nat → ℝ) (op : LocalOperator.Op)
    (h : ∀ P M p q c, op.integrand junk P M (m.point p) (m.point q) c = op.integrand junk P M p q c) (s : Space ℝ) (Q : Cubature ℝ) :
    LocalOperator.compute junk op (m.space s) Q = LocalOperator.compute junk op s Q := by
  have he : ∀ a, LocalOperator.elementMat junk op (m.space s) Q a = LocalOperator.elementMat junk op s Q a := by
    intro a
    unfold LocalOperator.elementMat
    simp only [space, show ∀ x w, map2surface s.t (m.geometry s.geo) a x w = m.point (map2surface s.t s.geo a x w) from fun _ _ => rfl, h]
  have ht : LocalOperator.triplets junk op (m.space s) Q = LocalOperator.triplets junk op s Q := by
    funext a
    unfold LocalOperator.triplets
    simp only [he]
    rfl
  unfold LocalOperator.compute
  rw [ht]
  rfl

theorem identity_moved (junk : Nat → ℝ) (P M : Nat) (p q : SurfPt) (c : Nat → Nat → ℝ) :
    LocalOperator.identity.integrand junk P M (m.point p) (m.point q) c = LocalOperator.identity.integrand junk P M p q c := by
  simp only [LocalOperator.identity, point, cross_rot, norm_rot]

theorem laplaceBeltrami_moved (junk : Nat → ℝ) (P M : Nat) (p q : SurfPt) (c : Nat → Nat → ℝ) :
    LocalOperator.laplaceBeltrami.integrand junk P M (m.point p) (m.point q) c =
      LocalOperator.laplaceBeltrami.integrand junk P M p q c := by
  simp only [LocalOperator.laplaceBeltrami, addScaledSurfaceGradientInteraction, curl_interaction]
  simp only [point, cross_rot, norm_rot]

/-! ## Potentials -/

theorem foldlM_sim {σ ι : Type} (L : List ι) (f f' : σ → ι → Option σ) (g : σ → σ) (h : ∀ s, ∀ x ∈ L, f' (g s) x = (f s x).map g) (s : σ) :
    L.foldlM f' (g s) = (L.foldlM f s).map g := by
  induction L generalizing s with
  | nil => rfl
  | cons a L ih =>
    rw [List.foldlM_cons, List.foldlM_cons, h s a (by simp)]
    cases f s a with
    | none => rfl
    | some s' => exact ih (fun s x hx => h s x (by simp [hx])) s'

theorem exec_sim {X : Type} [AddCommMonoid X] {T : Nat} (r r' : Omp.Region X X) (ρ : X →+ X) (hn : r'.n = r.n) (hi : r'.init = ρ r.init)
    (hb : ∀ i x, r'.body i (ρ x) = (r.body i x).map ρ) (hf : ∀ x, r'.fin (ρ x) = (r.fin x).map ρ) (d : X) (sched : List (Fin T)) :
    Omp.exec r' (ρ d) sched = (Omp.exec r d sched).map ρ := by
  let g : Omp.St T X X → Omp.St T X X := fun s => ⟨s.pc, s.claimed, fun t => ρ (s.priv t), ρ s.dst⟩
  have hs : Omp.start r' (ρ d) = g (Omp.start r d : Omp.St T X X) := by simp [Omp.start, g, hi]
  unfold Omp.exec
  rw [hs, foldlM_sim sched (Omp.step r) (Omp.step r') g]
  · cases sched.foldlM (Omp.step r) (Omp.start r d) with
    | none => rfl
    | some s => rfl
  · intro s t _
    unfold Omp.step
    simp only [g, hn]
    split
    · split
      · rfl
      · rw [hb]
        cases r.body (s.pc t) (s.priv t) with
        | none => rfl
        | some p =>
          simp only [Option.map_some]
          congr 2
          funext u
          by_cases hu : u = t
          · subst hu; simp
          · simp [Function.update_of_ne hu]
    · split
      · rw [hf]
        cases r.fin (s.priv t) with
        | none => rfl
        | some p => simp
      · rfl

/-- If the integrand at moved points is transformed by `ρ`, so are the values of the potential. -/
theorem potential_moved (junk : Nat → R) (pot : Potential.Pot R) (e : Evaluator R) (ρ : (Fin pot.od → R) →+ (Fin pot.od → R))
    (h : ∀ a x p, (pot.integrand junk (m.evaluator e) a (m.pos x) (m.point p)).map (fun v (k : Fin pot.od) => v k) =
      (pot.integrand junk e a x p).map fun v => ρ fun k => v k) (Q : Cubature ℝ) {n : Nat} (points : Fin n → V3) {T : Nat}
    (sched : List (Fin T)) :
    Potential.evaluate junk pot (m.evaluator e) Q (fun i => m.pos (points i)) sched =
      (Potential.evaluate junk pot e Q points sched).map fun u i => ρ (u i) := by
  let ρ' : (Fin n → Fin pot.od → R) →+ (Fin n → Fin pot.od → R) :=
    { toFun := fun u i => ρ (u i), map_zero' := by funext i; simp, map_add' := by intro u v; funext i; simp }
  have hbody : ∀ a my, Potential.elementBody junk pot (m.evaluator e) Q (fun i => m.pos (points i)) a (ρ' my) =
      (Potential.elementBody junk pot e Q points a my).map ρ' := by
    intro a my
    unfold Potential.elementBody
    refine foldlM_sim (List.range Q.size) _ _ ρ' (fun my j _ => ?_) my
    refine foldlM_sim (List.finRange n) _ _ ρ' (fun my i _ => ?_) my
    have hi := h a (points i) (map2surface e.space.t e.space.geo a (Q.xi j) (getH e.space.t a * getH e.space.t a * Q.w j))
    simp only [Option.bind_eq_bind]
    change (pot.integrand junk (m.evaluator e) a (m.pos (points i)) (m.point (map2surface e.space.t e.space.geo a (Q.xi j)
      (getH e.space.t a * getH e.space.t a * Q.w j)))).bind _ = _
    cases e1 : pot.integrand junk e a (points i) (map2surface e.space.t e.space.geo a (Q.xi j)
      (getH e.space.t a * getH e.space.t a * Q.w j)) with
    | none =>
      rw [e1] at hi
      simp only [Option.map_none, Option.map_eq_none_iff] at hi
      rw [hi]; rfl
    | some v =>
      rw [e1] at hi
      simp only [Option.map_some, Option.map_eq_some_iff] at hi
      obtain ⟨v', e2, e3⟩ := hi
      rw [e2]
      simp only [Option.bind_some, Option.map_some]
      congr 1
      funext i' k
      have e3' := fun k => congrFun e3 k
      by_cases hi' : i' = i
      · subst hi'
        simp only [Function.update_self]
        show ρ (my i') k + v' k = ρ (Function.update my i' _ i') k
        rw [Function.update_self, e3' k, show (fun k : Fin pot.od => my i' k + v k) = my i' + fun k : Fin pot.od => v k from rfl, map_add]
        rfl
      · rw [Function.update_of_ne hi']
        show ρ (my i') k = ρ (Function.update my i _ i') k
        rw [Function.update_of_ne hi']
  unfold Potential.evaluate
  show (elements e.space.t >>= fun els => _) = _
  cases elements e.space.t with
  | none => rfl
  | some els =>
    simp only [Option.bind_eq_bind, Option.bind_some]
    have := exec_sim (T := T) (Potential.region junk pot e Q points els)
      (Potential.region junk pot (m.evaluator e) Q (fun i => m.pos (points i)) els) ρ' rfl (map_zero ρ').symm (fun i my => by
        simp only [Potential.region]
        cases els[i]? with
        | none => rfl
        | some a => exact hbody a my) (fun _ => rfl) 0 sched
    rw [map_zero] at this
    exact this

/-- The rotation as a homomorphism. -/
noncomputable def rotHom (m : Motion) : (Fin 3 → R) →+ (Fin 3 → R) :=
  { toFun := m.rotR, map_zero' := by funext k; simp [rotR], map_add' := by intro u v; funext k; simp [rotR, mul_add, Finset.sum_add_distrib] }

theorem rotHom_apply (m : Motion) (g : Fin 3 → R) (k : Fin 3) : (m.rotHom : (Fin 3 → R) →+ (Fin 3 → R)) g k =
    algebraMap ℝ R (m.Q k 0) * g 0 + algebraMap ℝ R (m.Q k 1) * g 1 + algebraMap ℝ R (m.Q k 2) * g 2 := by
  simp only [rotHom, AddMonoidHom.coe_mk, ZeroHom.coe_mk, rotR, Fin.sum_univ_three]

theorem evaluate_moved (junk : Nat → R) (e : Evaluator R) (a : Addr) (p : SurfPt) :
    FunctionEval.evaluate junk (m.evaluator e) a (m.point p) = FunctionEval.evaluate junk e a p := rfl

theorem evaluateDiv_moved (junk : Nat → R) (e : Evaluator R) (a : Addr) (p : SurfPt) :
    evaluateDiv junk (m.evaluator e) a (m.point p) = evaluateDiv junk e a p := rfl

theorem evaluateVector_moved (junk : Nat → R) (e : Evaluator R) (a : Addr) (p : SurfPt) :
    evaluateVector junk (m.evaluator e) a (m.point p) = (evaluateVector junk e a p).map m.rotR := by
  unfold evaluateVector
  show (coeffs 2 e a).map _ = _
  rw [Option.map_map]
  congr 1
  funext c k
  simp only [evalVector, Function.comp_def, rotR, point, evaluator, space, rot_apply, map_add, map_mul, Fin.sum_univ_three]
  ring

end Bembel.Spec.Motion
