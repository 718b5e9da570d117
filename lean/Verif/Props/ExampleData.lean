import Mathlib.Analysis.Calculus.Gradient.Basic
import Verif.Props.PotentialPDE
import Verif.Spec.VectorCalculus
import Verif.Model.ExampleData
/-!
# Property theorems C75: the reference solutions of the examples

Reference points: Mathlib's Laplacian and derivative, `Spec/VectorCalculus`.
-/

namespace Bembel.Props
open Bembel.Spec Bembel.ExampleData Complex Filter Topology

section calculus
variable {E : Type} [NormedAddCommGroup E] [NormedSpace ℝ E]

theorem hasFDerivAt_coord (i : Fin 3) (y z : V3) : HasFDerivAt (fun z : V3 => (z - y) i) (EuclideanSpace.proj i : V3 →L[ℝ] ℝ) z := by
  have := (EuclideanSpace.proj (𝕜 := ℝ) i : V3 →L[ℝ] ℝ).hasFDerivAt.comp z ((hasFDerivAt_id z).sub_const y)
  exact this

theorem hasFDerivAt_inner_right (w y z : V3) : HasFDerivAt (fun z : V3 => inner ℝ (z - y) w) ((innerSL ℝ w)) z := by
  have := ((hasFDerivAt_id z).sub_const y).inner ℝ (hasFDerivAt_const w z)
  exact this.congr_fderiv (by ext w; simp [real_inner_comm])

theorem hasFDerivAt_radial_mul (g : ℝ → ℂ) (g' : ℂ) (p : V3 → ℝ) (p' : V3 →L[ℝ] ℝ) (y z : V3) (h : z ≠ y)
    (hg : HasDerivAt g g' ‖z - y‖) (hp : HasFDerivAt p p' z) :
    HasFDerivAt (fun z => p z • g ‖z - y‖)
      (p z • ((innerSL ℝ (z - y)).smulRight ((1 / ‖z - y‖) • g')) + p'.smulRight (g ‖z - y‖)) z :=
  hp.smul (Radial.hasFDerivAt g g' y z h hg)

theorem pderiv_radial_mul (g : ℝ → ℂ) (g' : ℂ) (p : V3 → ℝ) (p' : V3 →L[ℝ] ℝ) (y z : V3) (h : z ≠ y)
    (hg : HasDerivAt g g' ‖z - y‖) (hp : HasFDerivAt p p' z) (j : Fin 3) :
    pderiv j (fun z => p z • g ‖z - y‖) z =
      (p z * (z - y) j) • ((1 / ‖z - y‖) • g') + p' (EuclideanSpace.single j 1) • g ‖z - y‖ := by
  unfold pderiv
  rw [(hasFDerivAt_radial_mul g g' p p' y z h hg hp).fderiv]
  simp [mul_smul, EuclideanSpace.inner_single_right]

theorem pderiv_congr (j : Fin 3) (f g : V3 → ℂ) (x : V3) (h : f =ᶠ[𝓝 x] g) : pderiv j f x = pderiv j g x := by
  unfold pderiv; rw [h.fderiv_eq]

theorem curl_congr (F G : V3 → Fin 3 → ℂ) (x : V3) (h : F =ᶠ[𝓝 x] G) : curl F x = curl G x := by
  have h' : ∀ i, (fun z => F z i) =ᶠ[𝓝 x] fun z => G z i := fun i => by filter_upwards [h] with z hz; rw [hz]
  simp only [curl, fun i j => pderiv_congr j _ _ x (h' i)]

theorem div_congr (F G : V3 → Fin 3 → ℂ) (x : V3) (h : F =ᶠ[𝓝 x] G) : Spec.div F x = Spec.div G x := by
  have h' : ∀ i, (fun z => F z i) =ᶠ[𝓝 x] fun z => G z i := fun i => by filter_upwards [h] with z hz; rw [hz]
  simp only [Spec.div, fun i j => pderiv_congr j _ _ x (h' i)]

/-- The partial derivatives of `A(r) l + B(r) (c·l) c`, where `c = z - y`, `r = |c|`. -/
theorem pderiv_axial (A B : ℝ → ℂ) (A' B' : ℂ) (l y z : V3) (h : z ≠ y)
    (hA : HasDerivAt A A' ‖z - y‖) (hB : HasDerivAt B B' ‖z - y‖) (i j : Fin 3) :
    pderiv j (fun z => l i • A ‖z - y‖ + (inner ℝ (z - y) l * (z - y) i) • B ‖z - y‖) z =
      (l i * (z - y) j) • ((1 / ‖z - y‖) • A') + (inner ℝ (z - y) l * (z - y) i * (z - y) j) • ((1 / ‖z - y‖) • B') +
      (inner ℝ (z - y) l * (if i = j then 1 else 0) + (z - y) i * l j) • B ‖z - y‖ := by
  have k1 := hasFDerivAt_radial_mul A A' (fun _ => l i) 0 y z h hA (hasFDerivAt_const _ _)
  have hp := (hasFDerivAt_inner_right l y z).mul (hasFDerivAt_coord i y z)
  have k2 := hasFDerivAt_radial_mul B B' (fun z => inner ℝ (z - y) l * (z - y) i) _ y z h hB hp
  have k : HasFDerivAt (fun z => l i • A ‖z - y‖ + (inner ℝ (z - y) l * (z - y) i) • B ‖z - y‖) _ z := k1.add k2
  unfold pderiv
  rw [k.fderiv]
  simp [mul_smul, EuclideanSpace.inner_single_right, Pi.single_apply]
  ring_nf

theorem curl_axial (A B : ℝ → ℂ) (A' B' : ℂ) (l y z : V3) (h : z ≠ y)
    (hA : HasDerivAt A A' ‖z - y‖) (hB : HasDerivAt B B' ‖z - y‖) :
    curl (fun z i => l i • A ‖z - y‖ + (inner ℝ (z - y) l * (z - y) i) • B ‖z - y‖) z =
      fun i => cross3 (z - y) l i • ((1 / ‖z - y‖) • A' - B ‖z - y‖) := by
  unfold curl
  simp only [pderiv_axial A B A' B' l y z h hA hB]
  funext i
  fin_cases i <;> (simp [cross3]; ring)

theorem div_axial (A B : ℝ → ℂ) (A' B' : ℂ) (l y z : V3) (h : z ≠ y)
    (hA : HasDerivAt A A' ‖z - y‖) (hB : HasDerivAt B B' ‖z - y‖) :
    Spec.div (fun z i => l i • A ‖z - y‖ + (inner ℝ (z - y) l * (z - y) i) • B ‖z - y‖) z =
      inner ℝ (z - y) l • ((1 / ‖z - y‖) • A' + ‖z - y‖ • B' + (4 : ℝ) • B ‖z - y‖) := by
  have hr : 0 < ‖z - y‖ := norm_pos_iff.2 (sub_ne_zero.2 h)
  unfold Spec.div
  simp only [pderiv_axial A B A' B' l y z h hA hB]
  have e1 : ‖z - y‖ ^ 2 = (z - y) 0 ^ 2 + (z - y) 1 ^ 2 + (z - y) 2 ^ 2 := by
    rw [EuclideanSpace.norm_sq_eq]; simp [Fin.sum_univ_three]
  have e2 : inner ℝ (z - y) l = (z - y) 0 * l 0 + (z - y) 1 * l 1 + (z - y) 2 * l 2 := by
    rw [PiLp.inner_apply]; simp [Fin.sum_univ_three, mul_comm]
  have e3 : ‖z - y‖ • B' = ((z - y) 0 ^ 2 + (z - y) 1 ^ 2 + (z - y) 2 ^ 2) • (1 / ‖z - y‖) • B' := by
    rw [← e1, smul_smul]; congr 1; field_simp
  rw [e3, e2]
  generalize (z - y) 0 = a
  generalize (z - y) 1 = b
  generalize (z - y) 2 = c
  simp only [real_smul]
  push_cast
  simp
  ring

/-- The curl of `D(r) (c × l)`. -/
theorem curl_cross (D : ℝ → ℂ) (D' : ℂ) (l y z : V3) (h : z ≠ y) (hD : HasDerivAt D D' ‖z - y‖) :
    curl (fun z i => cross3 (z - y) l i • D ‖z - y‖) z =
      fun i => (inner ℝ (z - y) l * (z - y) i) • ((1 / ‖z - y‖) • D') - l i • (‖z - y‖ • D' + (2 : ℝ) • D ‖z - y‖) := by
  have hr : 0 < ‖z - y‖ := norm_pos_iff.2 (sub_ne_zero.2 h)
  have hp : ∀ (i j : Fin 3), HasFDerivAt (fun z : V3 => (z - y) i * l j - (z - y) j * l i)
      (l j • (EuclideanSpace.proj i : V3 →L[ℝ] ℝ) - l i • (EuclideanSpace.proj j : V3 →L[ℝ] ℝ)) z := fun i j =>
    ((hasFDerivAt_coord i y z).mul_const (l j)).sub ((hasFDerivAt_coord j y z).mul_const (l i))
  have q0 : (fun z : V3 => cross3 (z - y) l 0 • D ‖z - y‖) = fun z => ((z - y) 1 * l 2 - (z - y) 2 * l 1) • D ‖z - y‖ := by
    funext z; simp [cross3]
  have q1 : (fun z : V3 => cross3 (z - y) l 1 • D ‖z - y‖) = fun z => ((z - y) 2 * l 0 - (z - y) 0 * l 2) • D ‖z - y‖ := by
    funext z; simp [cross3]
  have q2 : (fun z : V3 => cross3 (z - y) l 2 • D ‖z - y‖) = fun z => ((z - y) 0 * l 1 - (z - y) 1 * l 0) • D ‖z - y‖ := by
    funext z; simp [cross3]
  unfold curl
  rw [q0, q1, q2]
  simp only [fun i j => pderiv_radial_mul D D' _ _ y z h hD (hp i j)]
  have e1 : ‖z - y‖ ^ 2 = (z - y) 0 ^ 2 + (z - y) 1 ^ 2 + (z - y) 2 ^ 2 := by
    rw [EuclideanSpace.norm_sq_eq]; simp [Fin.sum_univ_three]
  have e2 : inner ℝ (z - y) l = (z - y) 0 * l 0 + (z - y) 1 * l 1 + (z - y) 2 * l 2 := by
    rw [PiLp.inner_apply]; simp [Fin.sum_univ_three, mul_comm]
  have e3 : ‖z - y‖ • D' = ((z - y) 0 ^ 2 + (z - y) 1 ^ 2 + (z - y) 2 ^ 2) • (1 / ‖z - y‖) • D' := by
    rw [← e1, smul_smul]; congr 1; field_simp
  rw [e3, e2]
  generalize (z - y) = w
  funext i
  fin_cases i <;> (simp [Pi.single_apply]; ring)

end calculus

/-- The coefficient of `length` in the dipole field. -/
noncomputable def dipA (k : ℂ) (r : ℝ) : ℂ := exp (-I * k * r) * (k ^ 2 * r ^ 2 - 1 - I * k * r) / (r : ℂ) ^ 3
/-- The coefficient of `(c·length) c` in the dipole field. -/
noncomputable def dipB (k : ℂ) (r : ℝ) : ℂ := exp (-I * k * r) * (3 + 3 * I * k * r - k ^ 2 * r ^ 2) / (r : ℂ) ^ 5
/-- The coefficient of `c × length` in the curl of the dipole field. -/
noncomputable def dipD (k : ℂ) (r : ℝ) : ℂ := exp (-I * k * r) * (-k ^ 2 - I * k ^ 3 * r) / (r : ℂ) ^ 3

theorem cross_cross_smul (s : ℝ) (w l : V3) (i : Fin 3) : cross3 (cross3 (s • w) l) (s • w) i =
    s ^ 2 * ((w 0 ^ 2 + w 1 ^ 2 + w 2 ^ 2) * l i - (w 0 * l 0 + w 1 * l 1 + w 2 * l 2) * w i) := by
  fin_cases i <;> (simp [cross3]; ring)

theorem dipole_eq (pt : V3) (k : ℂ) (y l : V3) (h : pt ≠ y) :
    dipole pt k y l = fun i => l i • dipA k ‖pt - y‖ + (inner ℝ (pt - y) l * (pt - y) i) • dipB k ‖pt - y‖ := by
  have hr : 0 < ‖pt - y‖ := norm_pos_iff.2 (sub_ne_zero.2 h)
  have hc : (‖pt - y‖ : ℂ) ≠ 0 := ofReal_ne_zero.2 hr.ne'
  have e1 : ‖pt - y‖ ^ 2 = (pt - y) 0 ^ 2 + (pt - y) 1 ^ 2 + (pt - y) 2 ^ 2 := by
    rw [EuclideanSpace.norm_sq_eq]; simp [Fin.sum_univ_three]
  have e2 : inner ℝ (pt - y) l = (pt - y) 0 * l 0 + (pt - y) 1 * l 1 + (pt - y) 2 * l 2 := by
    rw [PiLp.inner_apply]; simp [Fin.sum_univ_three, mul_comm]
  have e4 : ∀ i, cross3 (cross3 ((1 / ‖pt - y‖) • (pt - y)) l) ((1 / ‖pt - y‖) • (pt - y)) i =
      l i - inner ℝ (pt - y) l * (pt - y) i / ‖pt - y‖ ^ 2 := by
    intro i
    rw [cross_cross_smul, ← e1, ← e2]
    field_simp
  funext i
  unfold dipole dipA dipB
  simp only [e4, PiLp.sub_apply, PiLp.smul_apply, smul_eq_mul, real_smul, inner_smul_left]
  push_cast
  simp
  field_simp
  ring

theorem hasDerivAt_exp_poly (k a b c : ℂ) (n : ℕ) (r : ℝ) (hr : 0 < r) :
    HasDerivAt (fun r : ℝ => exp (-I * k * r) * (a + b * r + c * (r : ℂ) ^ 2) / (r : ℂ) ^ n)
      (exp (-I * k * r) * ((-I * k * r - n) * (a + b * r + c * (r : ℂ) ^ 2) + b * r + 2 * c * (r : ℂ) ^ 2) / (r : ℂ) ^ (n + 1)) r := by
  have h0 : (r : ℂ) ≠ 0 := ofReal_ne_zero.2 hr.ne'
  have d1 : HasDerivAt (fun r : ℝ => (r : ℂ)) 1 r := ofRealCLM.hasDerivAt
  have d2 : HasDerivAt (fun r : ℝ => exp (-I * k * r)) (exp (-I * k * r) * (-I * k)) r := by
    have h2 : HasDerivAt (fun r : ℝ => -I * k * (r : ℂ)) (-I * k) r := by simpa using d1.const_mul (-I * k)
    exact h2.cexp
  have d3 : HasDerivAt (fun r : ℝ => a + b * r + c * (r : ℂ) ^ 2) (b + 2 * c * r) r := by
    exact (((d1.const_mul b).const_add a).add ((d1.pow 2).const_mul c)).congr_deriv (by simp; ring)
  refine ((d2.mul d3).div (d1.pow n) (pow_ne_zero _ h0)).congr_deriv ?_
  simp only [Pi.mul_apply, Pi.pow_apply]
  rcases n with _ | n
  · simp; field_simp; ring
  · simp only [Nat.add_sub_cancel]
    push_cast
    field_simp
    ring

theorem hasDerivAt_dipA (k : ℂ) (r : ℝ) (hr : 0 < r) : HasDerivAt (dipA k)
    (exp (-I * k * r) * (3 + 3 * I * k * r - 2 * k ^ 2 * r ^ 2 - I * k ^ 3 * r ^ 3) / (r : ℂ) ^ 4) r := by
  have := hasDerivAt_exp_poly k (-1) (-I * k) (k ^ 2) 3 r hr
  refine HasDerivAt.congr_deriv (f' := _) (this.congr_of_eventuallyEq (Eventually.of_forall fun r => ?_)) ?_
  · unfold dipA; ring_nf
  · push_cast
    congr 2
    linear_combination (k ^ 2 * r ^ 2) * I_sq

theorem hasDerivAt_dipB (k : ℂ) (r : ℝ) (hr : 0 < r) : HasDerivAt (dipB k)
    (exp (-I * k * r) * (-15 - 15 * I * k * r + 6 * k ^ 2 * r ^ 2 + I * k ^ 3 * r ^ 3) / (r : ℂ) ^ 6) r := by
  have := hasDerivAt_exp_poly k 3 (3 * I * k) (-k ^ 2) 5 r hr
  refine HasDerivAt.congr_deriv (f' := _) (this.congr_of_eventuallyEq (Eventually.of_forall fun r => ?_)) ?_
  · unfold dipB; ring_nf
  · push_cast
    congr 2
    linear_combination (-3 * k ^ 2 * r ^ 2) * I_sq

theorem hasDerivAt_dipD (k : ℂ) (r : ℝ) (hr : 0 < r) : HasDerivAt (dipD k)
    (exp (-I * k * r) * (k ^ 2 * (3 + 3 * I * k * r - k ^ 2 * r ^ 2)) / (r : ℂ) ^ 4) r := by
  have := hasDerivAt_exp_poly k (-k ^ 2) (-I * k ^ 3) 0 3 r hr
  refine HasDerivAt.congr_deriv (f' := _) (this.congr_of_eventuallyEq (Eventually.of_forall fun r => ?_)) ?_
  · unfold dipD; ring_nf
  · push_cast
    congr 2
    linear_combination (k ^ 4 * r ^ 2) * I_sq

/-- Away from the dipole the formulas agree with the model near every point. -/
theorem dipole_near (k : ℂ) (y l x : V3) (h : x ≠ y) : (fun z => dipole z k y l) =ᶠ[𝓝 x]
    fun z i => l i • dipA k ‖z - y‖ + (inner ℝ (z - y) l * (z - y) i) • dipB k ‖z - y‖ := by
  filter_upwards [isOpen_ne.mem_nhds h] with z hz
  exact dipole_eq z k y l hz

/-- The curl of the dipole field. -/
theorem dipole_curl (k : ℂ) (y l x : V3) (h : x ≠ y) :
    curl (fun z => dipole z k y l) x = fun i => cross3 (x - y) l i • dipD k ‖x - y‖ := by
  have hr : 0 < ‖x - y‖ := norm_pos_iff.2 (sub_ne_zero.2 h)
  have hc : (‖x - y‖ : ℂ) ≠ 0 := ofReal_ne_zero.2 hr.ne'
  rw [curl_congr _ _ x (dipole_near k y l x h), curl_axial (dipA k) (dipB k) _ _ l y x h (hasDerivAt_dipA k _ hr) (hasDerivAt_dipB k _ hr)]
  funext i
  congr 1
  unfold dipB dipD
  rw [real_smul]
  push_cast
  field_simp
  ring

theorem contDiffAt_exp_poly (k a b c : ℂ) (n : ℕ) (r : ℝ) (hr : 0 < r) :
    ContDiffAt ℝ 2 (fun r : ℝ => exp (-I * k * r) * (a + b * r + c * (r : ℂ) ^ 2) / (r : ℂ) ^ n) r := by
  have this : ContDiffAt ℝ 2 (fun r : ℝ => (r : ℂ)) r := ofRealCLM.contDiff.contDiffAt
  have h2 : ContDiffAt ℝ 2 (fun r : ℝ => exp (-I * k * r)) r := (contDiffAt_const.mul this).cexp
  have h3 : ContDiffAt ℝ 2 (fun r : ℝ => ((r⁻¹ : ℝ) : ℂ)) r := ofRealCLM.contDiff.contDiffAt.comp r (contDiffAt_inv ℝ hr.ne')
  have e : (fun r : ℝ => exp (-I * k * r) * (a + b * r + c * (r : ℂ) ^ 2) / (r : ℂ) ^ n) =
      fun r : ℝ => exp (-I * k * r) * (a + b * r + c * (r : ℂ) ^ 2) * ((r⁻¹ : ℝ) : ℂ) ^ n := by
    funext r; push_cast; rw [inv_pow]; rfl
  rw [e]
  exact (h2.mul ((contDiffAt_const.add (contDiffAt_const.mul this)).add (contDiffAt_const.mul (this.pow 2)))).mul (h3.pow n)

/-- **C75**: off its position, the Hertz dipole of the examples is a smooth, divergence free solution of the
curl-curl equation `curl curl E = kappa^2 E`, for every complex wave number and every axis. -/
theorem C75_dipole (k : ℂ) (y l x : V3) (h : x ≠ y) :
    (∀ i, ContDiffAt ℝ 2 (fun z => dipole z k y l i) x) ∧
    curl (curl fun z => dipole z k y l) x = (fun i => k ^ 2 * dipole x k y l i) ∧
    Spec.div (fun z => dipole z k y l) x = 0 := by
  have hr : 0 < ‖x - y‖ := norm_pos_iff.2 (sub_ne_zero.2 h)
  have hc : (‖x - y‖ : ℂ) ≠ 0 := ofReal_ne_zero.2 hr.ne'
  refine ⟨fun i => ?_, ?_, ?_⟩
  · have e : (fun z => dipole z k y l i) =ᶠ[𝓝 x]
        fun z => l i • dipA k ‖z - y‖ + (inner ℝ (z - y) l * (z - y) i) • dipB k ‖z - y‖ := by
      filter_upwards [dipole_near k y l x h] with z hz
      rw [hz]
    refine ContDiffAt.congr_of_eventuallyEq ?_ e
    have hA : ∀ r, 0 < r → ContDiffAt ℝ 2 (dipA k) r := fun r hr =>
      (contDiffAt_exp_poly k (-1) (-I * k) (k ^ 2) 3 r hr).congr_of_eventuallyEq
        (Eventually.of_forall fun r => by unfold dipA; ring_nf)
    have hB : ∀ r, 0 < r → ContDiffAt ℝ 2 (dipB k) r := fun r hr =>
      (contDiffAt_exp_poly k 3 (3 * I * k) (-k ^ 2) 5 r hr).congr_of_eventuallyEq
        (Eventually.of_forall fun r => by unfold dipB; ring_nf)
    have hi : ContDiffAt ℝ 2 (fun z : V3 => (z - y) i) x :=
      (EuclideanSpace.proj (𝕜 := ℝ) i : V3 →L[ℝ] ℝ).contDiff.contDiffAt.comp x (contDiffAt_id.sub contDiffAt_const)
    have hl : ContDiffAt ℝ 2 (fun z : V3 => inner ℝ (z - y) l) x :=
      (contDiffAt_id.sub contDiffAt_const).inner ℝ contDiffAt_const
    exact ((contDiffAt_const (c := l i)).smul (Radial.contDiffAt (dipA k) y x h hA)).add
      ((hl.mul hi).smul (Radial.contDiffAt (dipB k) y x h hB))
  · have e : (curl fun z => dipole z k y l) =ᶠ[𝓝 x] fun z i => cross3 (z - y) l i • dipD k ‖z - y‖ := by
      filter_upwards [isOpen_ne.mem_nhds h] with z hz
      exact dipole_curl k y l z hz
    rw [curl_congr _ _ x e, curl_cross (dipD k) _ l y x h (hasDerivAt_dipD k _ hr), dipole_eq x k y l h]
    funext i
    simp only [real_smul]
    unfold dipA dipB dipD
    push_cast
    field_simp
    ring
  · rw [div_congr _ _ x (dipole_near k y l x h), div_axial (dipA k) (dipB k) _ _ l y x h (hasDerivAt_dipA k _ hr) (hasDerivAt_dipB k _ hr)]
    simp only [real_smul]
    unfold dipB
    push_cast
    field_simp
    ring_nf

theorem hasFDerivAt_harmonic (x : V3) : HasFDerivAt harmonicFunction
    ((8 * x 0) • (EuclideanSpace.proj 0 : V3 →L[ℝ] ℝ) + (-6 * x 1) • (EuclideanSpace.proj 1 : V3 →L[ℝ] ℝ) +
      (-2 * x 2) • (EuclideanSpace.proj 2 : V3 →L[ℝ] ℝ)) x := by
  have c : ∀ i : Fin 3, HasFDerivAt (fun z : V3 => z i) (EuclideanSpace.proj i : V3 →L[ℝ] ℝ) x := fun i =>
    (EuclideanSpace.proj (𝕜 := ℝ) i : V3 →L[ℝ] ℝ).hasFDerivAt
  have := (((((c 0).const_mul 4).mul (c 0)).sub (((c 1).const_mul 3).mul (c 1))).sub ((c 2).mul (c 2)))
  refine this.congr_fderiv ?_
  ext v
  simp
  ring

/-- **C75**: the harmonic function of the examples is smooth and harmonic, and its stated gradient is its gradient. -/
theorem C75_harmonic (x : V3) : ContDiff ℝ 2 harmonicFunction ∧ HasGradientAt harmonicFunction (harmonicFunctionGrad x) x ∧
    Laplacian.laplacian harmonicFunction x = 0 := by
  refine ⟨?_, ?_, ?_⟩
  · have c : ∀ i : Fin 3, ContDiff ℝ 2 (fun z : V3 => z i) := fun i => (EuclideanSpace.proj (𝕜 := ℝ) i : V3 →L[ℝ] ℝ).contDiff
    exact (((contDiff_const.mul (c 0)).mul (c 0)).sub ((contDiff_const.mul (c 1)).mul (c 1))).sub ((c 2).mul (c 2))
  · refine (hasFDerivAt_harmonic x).congr_fderiv ?_
    ext v
    simp [harmonicFunctionGrad, PiLp.inner_apply, Fin.sum_univ_three, mul_comm]
  · rw [InnerProductSpace.laplacian_eq_iteratedFDeriv_orthonormalBasis _ (EuclideanSpace.basisFun (Fin 3) ℝ)]
    have e : fderiv ℝ harmonicFunction = fun x : V3 => (8 * x 0) • (EuclideanSpace.proj 0 : V3 →L[ℝ] ℝ) +
        (-6 * x 1) • (EuclideanSpace.proj 1 : V3 →L[ℝ] ℝ) + (-2 * x 2) • (EuclideanSpace.proj 2 : V3 →L[ℝ] ℝ) :=
      funext fun x => (hasFDerivAt_harmonic x).fderiv
    have c : ∀ i : Fin 3, HasFDerivAt (fun z : V3 => z i) (EuclideanSpace.proj i : V3 →L[ℝ] ℝ) x := fun i =>
      (EuclideanSpace.proj (𝕜 := ℝ) i : V3 →L[ℝ] ℝ).hasFDerivAt
    have d := ((((c 0).const_mul 8).smul_const (EuclideanSpace.proj 0 : V3 →L[ℝ] ℝ)).add
      (((c 1).const_mul (-6)).smul_const (EuclideanSpace.proj 1 : V3 →L[ℝ] ℝ))).add
      (((c 2).const_mul (-2)).smul_const (EuclideanSpace.proj 2 : V3 →L[ℝ] ℝ))
    simp only [iteratedFDeriv_two_apply, e]
    have d' := d.fderiv
    simp only [Fin.sum_univ_three, Matrix.cons_val_zero, Matrix.cons_val_one]
    erw [d']
    simp
    norm_num

/-- **C75**: off its centre, the Helmholtz reference solution of the examples is smooth and solves the Helmholtz
equation, and its stated gradient is its gradient. -/
theorem C75_helmholtz (k : ℂ) (y x : V3) (h : x ≠ y) :
    ContDiffAt ℝ 2 (fun z => helmholtzFundamentalSolution z k y) x ∧
    Laplacian.laplacian (fun z => helmholtzFundamentalSolution z k y) x = -k ^ 2 * helmholtzFundamentalSolution x k y ∧
    grad (fun z => helmholtzFundamentalSolution z k y) x = helmholtzFundamentalSolutionGrad x k y := by
  have hr : 0 < ‖x - y‖ := norm_pos_iff.2 (sub_ne_zero.2 h)
  have hc : (‖x - y‖ : ℂ) ≠ 0 := ofReal_ne_zero.2 hr.ne'
  have hpi : (Real.pi : ℂ) ≠ 0 := ofReal_ne_zero.2 Real.pi_ne_zero
  have := scaled_pde (fun z => Kernel.helmholtz k z y) (fun z => helmholtzFundamentalSolution z k y) (4 * Real.pi) (-k ^ 2) x
    (pde_helmholtz k x y h) fun z => by
      simp only [helmholtzFundamentalSolution, Kernel.helmholtz]
      field_simp
  refine ⟨this.1, this.2, ?_⟩
  funext j
  have d := hasDerivAt_exp_poly k 1 0 0 1 ‖x - y‖ hr
  have e : (fun z => helmholtzFundamentalSolution z k y) =
      fun z => (1 : ℝ) • (fun r : ℝ => exp (-I * k * r) * (1 + 0 * r + 0 * (r : ℂ) ^ 2) / (r : ℂ) ^ 1) ‖z - y‖ := by
    funext z; simp [helmholtzFundamentalSolution]
  unfold grad
  rw [e, pderiv_radial_mul _ _ (fun _ => 1) 0 y x h d (hasFDerivAt_const _ _)]
  simp only [helmholtzFundamentalSolutionGrad, real_smul, PiLp.neg_apply]
  push_cast
  simp
  field_simp
  ring

/-- The unit vector from `y` to `x`, with complex entries. -/
noncomputable def outward (x y : V3) : Fin 3 → ℂ := fun i => ((x - y) i / ‖x - y‖ : ℝ)

theorem norm_exp_le (k : ℂ) (hk : k.im ≤ 0) (r : ℝ) (hr : 0 ≤ r) : ‖exp (-I * k * r)‖ ≤ 1 := by
  rw [Complex.norm_exp]
  have : (-I * k * r).re = k.im * r := by simp
  rw [this, Real.exp_le_one_iff]
  exact mul_nonpos_of_nonpos_of_nonneg hk hr

theorem tendsto_of_le_div (y : V3) (C : ℝ) (f : V3 → ℝ) (h0 : ∀ x, 0 ≤ f x) (h : ∀ x, 1 ≤ ‖x - y‖ → f x ≤ C / ‖x - y‖) :
    Tendsto f (Bornology.cobounded V3) (𝓝 0) := by
  have ht : Tendsto (fun x : V3 => ‖x - y‖) (Bornology.cobounded V3) atTop := by
    have := Metric.tendsto_dist_right_cobounded_atTop y
    simpa only [dist_eq_norm] using this
  refine squeeze_zero' (Eventually.of_forall h0) ?_ (ht.const_div_atTop C)
  filter_upwards [ht.eventually_ge_atTop 1] with x hx
  exact h x hx

theorem dipole_silver (k : ℂ) (y l x : V3) (h : x ≠ y) (i : Fin 3) :
    crossProduct (curl (fun z => dipole z k y l) x) (outward x y) i + I * k * dipole x k y l i =
      exp (-I * k * ‖x - y‖) * (l i * (-I * k / (‖x - y‖ : ℂ) ^ 3) +
        (inner ℝ (x - y) l * (x - y) i : ℝ) * ((3 * I * k - 2 * k ^ 2 * ‖x - y‖) / (‖x - y‖ : ℂ) ^ 5)) := by
  have hr : 0 < ‖x - y‖ := norm_pos_iff.2 (sub_ne_zero.2 h)
  have hc : (‖x - y‖ : ℂ) ≠ 0 := ofReal_ne_zero.2 hr.ne'
  have e1 : ‖x - y‖ ^ 2 = (x - y) 0 ^ 2 + (x - y) 1 ^ 2 + (x - y) 2 ^ 2 := by
    rw [EuclideanSpace.norm_sq_eq]; simp [Fin.sum_univ_three]
  have e2 : inner ℝ (x - y) l = (x - y) 0 * l 0 + (x - y) 1 * l 1 + (x - y) 2 * l 2 := by
    rw [PiLp.inner_apply]; simp [Fin.sum_univ_three, mul_comm]
  have e : crossProduct (curl (fun z => dipole z k y l) x) (outward x y) i =
      ((‖x - y‖ * l i - inner ℝ (x - y) l * (x - y) i / ‖x - y‖ : ℝ) : ℂ) * dipD k ‖x - y‖ := by
    have e3 : ‖x - y‖ * l i - inner ℝ (x - y) l * (x - y) i / ‖x - y‖ =
        (1 / ‖x - y‖) * (((x - y) 0 ^ 2 + (x - y) 1 ^ 2 + (x - y) 2 ^ 2) * l i - ((x - y) 0 * l 0 + (x - y) 1 * l 1 + (x - y) 2 * l 2) * (x - y) i) := by
      rw [← e1, ← e2]; field_simp
    rw [dipole_curl k y l x h, e3, cross_apply]
    simp only [outward, real_smul, cross3]
    generalize (x - y) = w
    fin_cases i <;> (simp; ring)
  rw [e, dipole_eq x k y l h]
  simp only [real_smul]
  unfold dipA dipB dipD
  push_cast
  field_simp
  ring_nf
  simp only [I_sq]
  ring

/-- **C75**: for wave numbers with non-positive imaginary part the reference solutions of the examples satisfy the
radiation condition at infinity: Sommerfeld's for the Helmholtz solution, Silver-Müller's for the dipole. -/
theorem C75_radiation (k : ℂ) (hk : k.im ≤ 0) (y l : V3) :
    Tendsto (fun x => ‖x - y‖ * ‖∑ j, grad (fun z => helmholtzFundamentalSolution z k y) x j * outward x y j +
      I * k * helmholtzFundamentalSolution x k y‖) (Bornology.cobounded V3) (𝓝 0) ∧
    Tendsto (fun x => ‖x - y‖ * ‖crossProduct (curl (fun z => dipole z k y l) x) (outward x y) +
      (I * k) • dipole x k y l‖) (Bornology.cobounded V3) (𝓝 0) := by
  refine ⟨tendsto_of_le_div y 1 _ (fun x => by positivity) fun x hx => ?_,
    tendsto_of_le_div y (‖l‖ * (4 * ‖k‖ + 2 * ‖k‖ ^ 2)) _ (fun x => by positivity) fun x hx => ?_⟩
  · have hr : 0 < ‖x - y‖ := by linarith
    have hc : (‖x - y‖ : ℂ) ≠ 0 := ofReal_ne_zero.2 hr.ne'
    have hxy : x ≠ y := by rintro rfl; simp at hr
    have e1 : ‖x - y‖ ^ 2 = (x - y) 0 ^ 2 + (x - y) 1 ^ 2 + (x - y) 2 ^ 2 := by
      rw [EuclideanSpace.norm_sq_eq]; simp [Fin.sum_univ_three]
    have e1' : (((x - y) 0 : ℝ) : ℂ) ^ 2 + (((x - y) 1 : ℝ) : ℂ) ^ 2 + (((x - y) 2 : ℝ) : ℂ) ^ 2 = (‖x - y‖ : ℂ) ^ 2 := by
      exact_mod_cast e1.symm
    have e : ∑ j, grad (fun z => helmholtzFundamentalSolution z k y) x j * outward x y j +
        I * k * helmholtzFundamentalSolution x k y = -exp (-I * k * ‖x - y‖) / (‖x - y‖ : ℂ) ^ 2 := by
      rw [(C75_helmholtz k y x hxy).2.2]
      simp only [Fin.sum_univ_three, helmholtzFundamentalSolutionGrad, helmholtzFundamentalSolution, outward, PiLp.neg_apply]
      revert e1'
      generalize ((x - y) 0) = a
      generalize ((x - y) 1) = b
      generalize ((x - y) 2) = c
      intro e1'
      push_cast
      field_simp
      linear_combination (-(1 + I * k * ‖x - y‖)) * e1'
    rw [e, norm_div, norm_neg, norm_pow, norm_real, norm_norm]
    have := norm_exp_le k hk ‖x - y‖ hr.le
    rw [mul_div_assoc', div_le_div_iff₀ (by positivity) hr]
    nlinarith [mul_le_mul_of_nonneg_left this (sq_nonneg ‖x - y‖)]
  · have hr : 0 < ‖x - y‖ := by linarith
    have hxy : x ≠ y := by rintro rfl; simp at hr
    have key : ‖crossProduct (curl (fun z => dipole z k y l) x) (outward x y) + (I * k) • dipole x k y l‖ ≤
        ‖l‖ * (4 * ‖k‖ + 2 * ‖k‖ ^ 2) / ‖x - y‖ ^ 2 := by
      refine (pi_norm_le_iff_of_nonneg (by positivity)).2 fun i => ?_
      rw [Pi.add_apply, Pi.smul_apply, smul_eq_mul, dipole_silver k y l x hxy i, norm_mul]
      have h1 := norm_exp_le k hk ‖x - y‖ hr.le
      have h2 : |l i| ≤ ‖l‖ := by simpa using PiLp.norm_apply_le l i
      have h3 : |(x - y) i| ≤ ‖x - y‖ := by simpa using PiLp.norm_apply_le (x - y) i
      have h4 : |inner ℝ (x - y) l| ≤ ‖x - y‖ * ‖l‖ := abs_real_inner_le_norm _ _
      refine (mul_le_of_le_one_left (norm_nonneg _) h1).trans ((norm_add_le _ _).trans ?_)
      rw [norm_mul, norm_mul, norm_div, norm_div, norm_pow, norm_pow, norm_real, norm_real, norm_real, norm_norm, norm_mul, norm_neg,
        norm_I, one_mul, norm_mul, Real.norm_eq_abs, Real.norm_eq_abs, Real.norm_eq_abs]
      have h5 : ‖3 * I * k - 2 * k ^ 2 * (‖x - y‖ : ℂ)‖ ≤ 3 * ‖k‖ + 2 * ‖k‖ ^ 2 * ‖x - y‖ := by
        refine (norm_sub_le _ _).trans ?_
        simp
      have h6 : |l i| * (‖k‖ / ‖x - y‖ ^ 3) ≤ ‖l‖ * (‖k‖ / ‖x - y‖ ^ 2) := by
        refine mul_le_mul h2 ?_ (by positivity) (norm_nonneg _)
        exact div_le_div_of_nonneg_left (norm_nonneg _) (by positivity) (pow_le_pow_right₀ hx (by norm_num))
      have h7 : |inner ℝ (x - y) l| * |(x - y) i| * (‖3 * I * k - 2 * k ^ 2 * (‖x - y‖ : ℂ)‖ / ‖x - y‖ ^ 5) ≤
          ‖l‖ * ((3 * ‖k‖ + 2 * ‖k‖ ^ 2) / ‖x - y‖ ^ 2) := by
        have : |inner ℝ (x - y) l| * |(x - y) i| * (‖3 * I * k - 2 * k ^ 2 * (‖x - y‖ : ℂ)‖ / ‖x - y‖ ^ 5) ≤
            (‖x - y‖ * ‖l‖ * ‖x - y‖) * ((3 * ‖k‖ * ‖x - y‖ + 2 * ‖k‖ ^ 2 * ‖x - y‖) / ‖x - y‖ ^ 5) := by
          gcongr
          refine h5.trans ?_
          nlinarith [norm_nonneg k, mul_nonneg (norm_nonneg k) (sub_nonneg.2 hx)]
        refine this.trans (le_of_eq ?_)
        field_simp
      refine (add_le_add h6 h7).trans (le_of_eq ?_)
      ring
    calc _ ≤ ‖x - y‖ * (‖l‖ * (4 * ‖k‖ + 2 * ‖k‖ ^ 2) / ‖x - y‖ ^ 2) := by gcongr
      _ = _ := by field_simp

/-- The hypotheses of C75 are met. -/
example : (0 : ℂ).im ≤ 0 ∧ (2 - I : ℂ).im ≤ 0 ∧ (!₂[1, 0, 0] : V3) ≠ 0 := by
  refine ⟨by simp, by simp, fun h => ?_⟩
  have := congrArg (fun v : V3 => v 0) h
  simp at this

end Bembel.Props
