import Verif.Model.LinearForm
import Verif.Spec.LinearForm
import Verif.Props.Potential
/-!
# Property theorems C61, C62: load vectors, mass matrices and the Laplace-Beltrami operator
-/

set_option linter.unusedSectionVars false

namespace Bembel.Props
open Finset Bembel.Mesh Bembel.Spec Bembel.FunctionEval Bembel.SuperSpace Bembel.LinearForm

variable {R : Type} [Field R] [Algebra ℝ R]

/-- Filling the rows of all elements. -/
theorem fillRows_eq (pp nE vd : Nat) (ident : Addr → Nat) (E : Addr → Nat → Nat → R) (l : List Addr) (hl : ∀ a ∈ l, ident a < nE)
    (hn : (l.map ident).Nodup) (D0 : EMat R) (hr : D0.rows = pp * nE) (hc : D0.cols = vd) :
    ∃ D, l.foldlM (fun (D : EMat R) a => D.setBlock (pp * ident a) 0 pp vd ⟨pp, vd, E a⟩) D0 = some D ∧ D.rows = pp * nE ∧ D.cols = vd ∧
      ∀ a ∈ l, ∀ i < pp, ∀ d < vd, D.at' (pp * ident a + i) d = E a i d := by
  induction l using List.reverseRecOn with
  | nil => exact ⟨D0, rfl, hr, hc, by simp⟩
  | append_singleton l b ih =>
    rw [List.map_append, List.nodup_append] at hn
    obtain ⟨D, h1, h2, h3, h4⟩ := ih (fun a ha => hl a (by simp [ha])) hn.1
    rw [List.foldlM_append, h1]
    simp only [Option.bind_eq_bind, Option.bind_some, List.foldlM_cons, List.foldlM_nil, EMat.setBlock]
    have hb : ident b < nE := hl b (by simp)
    have hle : pp * ident b + pp ≤ pp * nE := by rw [← Nat.mul_succ]; exact Nat.mul_le_mul_left _ hb
    rw [if_pos ⟨by rw [h2]; exact hle, by rw [h3, Nat.zero_add], trivial, trivial⟩]
    refine ⟨_, rfl, h2, h3, ?_⟩
    intro a ha i hi d hd
    rcases List.mem_append.1 ha with ha | ha
    · have hne : ident a ≠ ident b := hn.2.2 _ (List.mem_map_of_mem ha) _ (by simp)
      have : ¬ ((pp * ident b ≤ pp * ident a + i ∧ pp * ident a + i < pp * ident b + pp) ∧ (0 ≤ d ∧ d < 0 + vd)) := by
        rintro ⟨⟨q1, q2⟩, -⟩
        rcases Nat.lt_or_gt_of_ne hne with h | h
        · have := Nat.mul_le_mul_left pp (Nat.succ_le_of_lt h)
          rw [Nat.mul_succ] at this; omega
        · have := Nat.mul_le_mul_left pp (Nat.succ_le_of_lt h)
          rw [Nat.mul_succ] at this; omega
      simp only [this, if_false]
      exact h4 a ha i hi d hd
    · obtain rfl : a = b := by simpa using ha
      have : (pp * ident a ≤ pp * ident a + i ∧ pp * ident a + i < pp * ident a + pp) ∧ (0 ≤ d ∧ d < 0 + vd) := by omega
      simp only [this, and_self, if_true]
      rw [Nat.add_sub_cancel_left, Nat.sub_zero]

/-- Sum over the rows of a long vector: component, element, shape function. -/
theorem long_sum (vd pp nE : Nat) (F : Nat → R) :
    ∑ r ∈ range (vd * (pp * nE)), F r = ∑ d ∈ range vd, ∑ n ∈ range nE, ∑ i ∈ range pp, F (d * (pp * nE) + (pp * n + i)) := by
  rw [H2.sum_range_mul]
  refine sum_congr rfl fun d _ => ?_
  rw [Nat.mul_comm pp nE, H2.sum_range_mul]
  refine sum_congr rfl fun n _ => sum_congr rfl fun i _ => ?_
  rw [Nat.mul_comm pp n]

theorem localCoeff_unit (T : EMat R) (nE P d n i c : Nat) (hc : c < T.cols) :
    localCoeff T (unitVec T.cols c) nE P d n i = T.at' (d * ((P + 1) * (P + 1) * nE) + ((P + 1) * (P + 1) * n + i)) c := by
  simp only [localCoeff, unitVec, mul_ite, mul_one, mul_zero]
  rw [sum_ite_eq' (range T.cols) c, if_pos (mem_range.2 hc)]

/-- A fold of additions. -/
theorem fold_add_entry {α : Type} (step : α → (Nat → Nat → R) → (Nat → Nat → R)) (v : α → Nat → Nat → R) (good : Nat → Nat → Prop)
    (h : ∀ x c i j, good i j → step x c i j = c i j + v x i j) (pts : Nat → α) (m : Nat) (c0 : Nat → Nat → R) (i j : Nat) (hg : good i j) :
    (List.range m).foldl (fun c q => step (pts q) c) c0 i j = c0 i j + ∑ q ∈ range m, v (pts q) i j := by
  induction m with
  | zero => simp
  | succ m ih =>
    rw [List.range_succ, List.foldl_append, List.foldl_cons, List.foldl_nil, h _ _ _ _ hg, ih, sum_range_succ, add_assoc]

/-- The load vector of a form whose integrand adds weight times `G` times shape function. -/
theorem load_eq {V : Type} (near : V → V → Bool) (corner : Nat → Nat → V) (np M : Nat) (hP : 0 < np)
    (space : Space R) (ht : initElementTree near corner np M = some space.t) (form : Form R)
    (hT : space.trans.rows = form.vd * ((space.P + 1) * (space.P + 1) * space.t.nElements)) (junk : Nat → R) (Q : Cubature ℝ)
    (G : Nat → SurfPt → R)
    (hG : ∀ (xi : ℝ × ℝ) (w : ℝ) (y dx dy : V3) (c : Nat → Nat → R) (i d : Nat), i < (space.P + 1) * (space.P + 1) ∧ d < form.vd →
      form.integrand junk space.P ⟨xi, w, y, dx, dy⟩ c i d = c i d + algebraMap ℝ R w * G d ⟨xi, 1, y, dx, dy⟩ * algebraMap ℝ R (shape space.P i xi)) :
    ∃ els v, elements space.t = some els ∧ compute junk form space Q = some v ∧ v.rows = space.trans.cols ∧ v.cols = 1 ∧
      ∀ c < space.trans.cols, v.at' c 0 = surfaceQuad space.t space.geo Q els fun a p => ∑ d ∈ range form.vd,
        G d p * discreteFunction space.trans (unitVec space.trans.cols c) space.t.nElements space.P d (space.t.id a) (getH space.t a) p.xi := by
  obtain ⟨t, j1, j2, els, j3, j4, j5, j6⟩ := C20_uniform_mesh (K := ℝ) near corner np M hP
  obtain rfl : space.t = t := Option.some.inj (ht.symm.trans j1)
  have hget : ∀ n a, els[n]? = some a → space.t.id a = n := fun n a h => (j6 n a h).1
  have hids : els.map space.t.id = List.range els.length := by
    apply List.ext_getElem
    · simp
    · intro n h1 h2
      rw [List.getElem_map, List.getElem_range]
      exact hget n _ (List.getElem?_eq_getElem (by simpa using h1))
  have hlen : els.length = space.t.nElements := by rw [j4, j2]
  have hlt : ∀ a ∈ els, space.t.id a < space.t.nElements := by
    intro a ha
    have : space.t.id a ∈ els.map space.t.id := List.mem_map_of_mem ha
    rw [hids, List.mem_range, hlen] at this; exact this
  set pp := (space.P + 1) * (space.P + 1) with hpp
  obtain ⟨D, d1, d2, d3, d4⟩ := fillRows_eq pp space.t.nElements form.vd space.t.id (elementVec junk form space Q) els hlt
    (by rw [hids]; exact List.nodup_range) ⟨pp * space.t.nElements, form.vd, fun _ _ => 0⟩ rfl rfl
  refine ⟨els, ?_⟩
  unfold compute
  rw [j3]
  simp only [Option.bind_eq_bind, Option.bind_some, ← hpp]
  rw [d1]
  simp only [Option.bind_some, EMat.reshape, mul_one, le_refl, if_true, EMat.mul, EMat.tr]
  rw [if_pos (by rw [hT, d2, d3, Nat.mul_comm])]
  refine ⟨_, trivial, rfl, rfl, rfl, ?_⟩
  intro c hc
  simp only [Nat.zero_mul, Nat.zero_add]
  rw [hT, long_sum, d2]
  -- entries of an element
  have hE : ∀ a, ∀ i < pp, ∀ d < form.vd, elementVec junk form space Q a i d = ∑ q ∈ range Q.size,
      algebraMap ℝ R (getH space.t a * Q.w q) * G d (elementPoint space.t space.geo a (Q.xi q)) * algebraMap ℝ R (shape space.P i (Q.xi q)) := by
    intro a i hi d hd
    unfold elementVec
    have := fold_add_entry (R := R) (fun (x : (ℝ × ℝ) × ℝ) c => form.integrand junk space.P (map2surface space.t space.geo a x.1 x.2) c)
      (fun x i d => algebraMap ℝ R x.2 * G d (elementPoint space.t space.geo a x.1) * algebraMap ℝ R (shape space.P i x.1))
      (fun i d => i < pp ∧ d < form.vd) (fun x c i d h => hG x.1 x.2 _ _ _ c i d h)
      (fun q => (Q.xi q, getH space.t a * Q.w q)) Q.size (fun _ _ => 0) i d ⟨hi, hd⟩
    simp only [zero_add] at this
    exact this
  have hsum := sum_getD_list (fun a => ∑ d ∈ range form.vd, ∑ i ∈ range pp,
    space.trans.at' (d * (pp * space.t.nElements) + (pp * space.t.id a + i)) c * elementVec junk form space Q a i d) els
  rw [sum_comm]
  have step1 : ∑ n ∈ range space.t.nElements, ∑ d ∈ range form.vd, ∑ i ∈ range pp,
      space.trans.at' (d * (pp * space.t.nElements) + (pp * n + i)) c *
        D.at' ((d * (pp * space.t.nElements) + (pp * n + i)) % (pp * space.t.nElements)) ((d * (pp * space.t.nElements) + (pp * n + i)) / (pp * space.t.nElements)) =
      (els.map fun a => ∑ d ∈ range form.vd, ∑ i ∈ range pp,
        space.trans.at' (d * (pp * space.t.nElements) + (pp * space.t.id a + i)) c * elementVec junk form space Q a i d).sum := by
    rw [← hsum, hlen]
    refine sum_congr rfl fun n hn => ?_
    have hn' : n < els.length := by rw [hlen]; exact mem_range.1 hn
    rw [List.getElem?_eq_getElem hn', Option.map_some, Option.getD_some]
    have hid := hget n _ (List.getElem?_eq_getElem hn')
    refine sum_congr rfl fun d hd => sum_congr rfl fun i hi => ?_
    have hlt2 : pp * n + i < pp * space.t.nElements := by
      have := long_idx_lt (vd := 1) (d := 0) (pp := pp) (nE := space.t.nElements) (n := n) (i := i) (by omega) (mem_range.1 hn) (mem_range.1 hi)
      omega
    rw [Nat.mul_comm d, Nat.mul_add_mod, Nat.mod_eq_of_lt hlt2, Nat.mul_add_div (by omega), Nat.div_eq_of_lt hlt2, Nat.add_zero, hid]
    have := d4 els[n] (List.getElem_mem hn') i (mem_range.1 hi) d (mem_range.1 hd)
    rw [hid] at this
    rw [this]
  rw [step1]
  unfold surfaceQuad
  congr 1
  refine List.map_congr_left fun a ha => ?_
  have hh : algebraMap ℝ R (getH space.t a) ≠ 0 := by
    rw [Ne, map_eq_zero]; unfold getH; positivity
  simp only [discreteFunction, localCoeff_unit _ _ _ _ _ _ _ hc, mul_sum, ← hpp]
  rw [sum_comm]
  rw [sum_congr rfl fun i hi => sum_congr rfl fun d hd => by rw [hE a i (mem_range.1 hi) d (mem_range.1 hd), mul_sum]]
  rw [sum_congr rfl fun i _ => sum_comm, sum_comm]
  refine sum_congr rfl fun q _ => ?_
  rw [sum_comm]
  refine sum_congr rfl fun d _ => sum_congr rfl fun i _ => ?_
  simp only [map_mul, map_pow, one_div, map_inv₀]
  have e : (elementPoint space.t space.geo a (Q.xi q)).xi = Q.xi q := rfl
  rw [e]
  field_simp

theorem addScaledBasis_eq (junk : Nat → R) (P : Nat) (c : Nat → Nat → R) (w : R) (s : ℝ × ℝ) (i : Nat) (hi : i < (P + 1) * (P + 1)) :
    addScaledBasis junk P c w s i 0 = c i 0 + w * algebraMap ℝ R (shape P i s) := by
  have h := basis_eq junk P s i hi
  unfold basis Basis.phiPhi at h
  rw [Basis.tensorLoop_apply, if_pos hi, zero_add, one_mul] at h
  rw [addScaledBasis, if_pos rfl, Basis.phiPhi, Basis.tensorLoop_apply, if_pos hi, ← h, mul_assoc]

/-- C61, Dirichlet trace: entry `c` of the load vector is the quadrature on the surface of data times `c`-th ansatz function (times area
element). -/
theorem C61_dirichlet {V : Type} (near : V → V → Bool) (corner : Nat → Nat → V) (np M : Nat) (hP : 0 < np)
    (space : Space R) (ht : initElementTree near corner np M = some space.t)
    (hT : space.trans.rows = 1 * ((space.P + 1) * (space.P + 1) * space.t.nElements)) (junk : Nat → R) (Q : Cubature ℝ) (g : V3 → R) :
    ∃ els v, elements space.t = some els ∧ compute junk (dirichlet g) space Q = some v ∧ v.rows = space.trans.cols ∧ v.cols = 1 ∧
      ∀ c < space.trans.cols, v.at' c 0 = surfaceQuad space.t space.geo Q els fun a p =>
        g p.f * algebraMap ℝ R ‖cross3 p.dx p.dy‖ *
          discreteFunction space.trans (unitVec space.trans.cols c) space.t.nElements space.P 0 (space.t.id a) (getH space.t a) p.xi := by
  obtain ⟨els, v, h1, h2, h3, h4, h5⟩ := load_eq near corner np M hP space ht (dirichlet g) hT junk Q
    (fun _ p => g p.f * algebraMap ℝ R ‖cross3 p.dx p.dy‖) (by
    rintro xi w y dx dy c i d ⟨hi, hd⟩
    obtain rfl : d = 0 := by simpa [dirichlet] using hd
    simp only [dirichlet]
    rw [addScaledBasis_eq _ _ _ _ _ _ hi]
    ring)
  refine ⟨els, v, h1, h2, h3, h4, fun c hc => (h5 c hc).trans ?_⟩
  simp [dirichlet]

/-- C61, Neumann trace: normal component of the data times `c`-th ansatz function; the normal `dx × dy` contains the area element. -/
theorem C61_neumann {V : Type} (near : V → V → Bool) (corner : Nat → Nat → V) (np M : Nat) (hP : 0 < np)
    (space : Space R) (ht : initElementTree near corner np M = some space.t)
    (hT : space.trans.rows = 1 * ((space.P + 1) * (space.P + 1) * space.t.nElements)) (junk : Nat → R) (Q : Cubature ℝ) (g : V3 → Fin 3 → R) :
    ∃ els v, elements space.t = some els ∧ compute junk (neumann g) space Q = some v ∧ v.rows = space.trans.cols ∧ v.cols = 1 ∧
      ∀ c < space.trans.cols, v.at' c 0 = surfaceQuad space.t space.geo Q els fun a p =>
        (∑ k, g p.f k * algebraMap ℝ R (cross3 p.dx p.dy k)) *
          discreteFunction space.trans (unitVec space.trans.cols c) space.t.nElements space.P 0 (space.t.id a) (getH space.t a) p.xi := by
  obtain ⟨els, v, h1, h2, h3, h4, h5⟩ := load_eq near corner np M hP space ht (neumann g) hT junk Q
    (fun _ p => ∑ k, g p.f k * algebraMap ℝ R (cross3 p.dx p.dy k)) (by
    rintro xi w y dx dy c i d ⟨hi, hd⟩
    obtain rfl : d = 0 := by simpa [neumann] using hd
    simp only [neumann]
    rw [addScaledBasis_eq _ _ _ _ _ _ hi]
    simp only [mul_comm (g y _)]
    ring)
  refine ⟨els, v, h1, h2, h3, h4, fun c hc => (h5 c hc).trans ?_⟩
  simp [neumann]

theorem addTangential_eq (junk : Nat → R) (P : Nat) (p : SurfPt) (tc : Fin 3 → R) (c : Nat → Nat → R) (i d : Nat)
    (h : i < (P + 1) * (P + 1) ∧ d < 2) : addTangential junk P p tc c i d = c i d +
      (∑ k, algebraMap ℝ R ((if d = 0 then p.dx else p.dy) k) * tc k) * algebraMap ℝ R (shape P i p.xi) := by
  unfold addTangential
  simp only [h, and_self, if_true, basis_eq junk P p.xi i h.1]
  split_ifs <;> rfl

/-- C61, tangential trace: the cross product of the data with the unit normal, paired with the vector field of the `c`-th ansatz function.
`cj` is what Eigen's `cross` applies to the components; for complex data and Eigen up to version 3.4 this is the conjugation, and the load
vector belongs to the conjugated data. -/
theorem C61_tangential {V : Type} (near : V → V → Bool) (corner : Nat → Nat → V) (np M : Nat) (hP : 0 < np)
    (space : Space R) (ht : initElementTree near corner np M = some space.t)
    (hT : space.trans.rows = 2 * ((space.P + 1) * (space.P + 1) * space.t.nElements)) (junk : Nat → R) (Q : Cubature ℝ) (g : V3 → Fin 3 → R)
    (cj : R →ₐ[ℝ] R) :
    ∃ els v, elements space.t = some els ∧ compute junk (tangential cj g) space Q = some v ∧ v.rows = space.trans.cols ∧ v.cols = 1 ∧
      ∀ c < space.trans.cols, v.at' c 0 = surfaceQuad space.t space.geo Q els fun a p =>
        let n := fun k => algebraMap ℝ R (normalized (cross3 p.dx p.dy) k)
        let u := fun k => cj (g p.f k)
        let F := discreteField space.trans (unitVec space.trans.cols c) space.t.nElements space.P (space.t.id a) (getH space.t a) p.xi p.dx p.dy
        (u 1 * n 2 - u 2 * n 1) * F 0 + (u 2 * n 0 - u 0 * n 2) * F 1 + (u 0 * n 1 - u 1 * n 0) * F 2 := by
  obtain ⟨els, v, h1, h2, h3, h4, h5⟩ := load_eq near corner np M hP space ht (tangential cj g) hT junk Q
    (fun d p => ∑ k, algebraMap ℝ R ((if d = 0 then p.dx else p.dy) k) * crossE cj (g p.f) (normalized (cross3 p.dx p.dy)) k) (by
    rintro xi w y dx dy c i d h
    simp only [tangential]
    rw [addTangential_eq _ _ _ _ _ _ _ h]
    simp only [← mul_assoc, ← sum_mul]
    ring)
  refine ⟨els, v, h1, h2, h3, h4, fun c hc => (h5 c hc).trans ?_⟩
  congr 1
  funext a p
  have : (tangential cj g).vd = 2 := rfl
  rw [this]
  simp only [sum_range_succ, sum_range_zero, zero_add, one_ne_zero, if_true, if_false, Fin.sum_univ_three, crossE, discreteField,
    Matrix.cons_val_zero, Matrix.cons_val_one, Matrix.cons_val, map_sub, map_mul, AlgHom.commutes]
  ring

theorem normalized_orth (dx dy : V3) : ∑ k, dx k * normalized (cross3 dx dy) k = 0 ∧ ∑ k, dy k * normalized (cross3 dx dy) k = 0 := by
  have hc : ∑ k, dx k * cross3 dx dy k = 0 ∧ ∑ k, dy k * cross3 dx dy k = 0 := by
    simp [Fin.sum_univ_three, cross3]
    constructor <;> ring
  unfold normalized
  split_ifs with h
  · have e : ∀ v : V3, ∑ k, v k * ((1 / ‖cross3 dx dy‖) • cross3 dx dy) k = (1 / ‖cross3 dx dy‖) * ∑ k, v k * cross3 dx dy k := by
      intro v
      rw [mul_sum]
      refine sum_congr rfl fun k _ => ?_
      simp only [PiLp.smul_apply, smul_eq_mul]
      ring
    rw [e, e, hc.1, hc.2, mul_zero]
    exact ⟨rfl, rfl⟩
  · exact hc

/-- C61, rotated tangential trace: the data paired with the (tangential) vector field of the `c`-th ansatz function, for real and
complex data (`cj` is the conjugation in Eigen's `dot`). -/
theorem C61_rotated_tangential {V : Type} (near : V → V → Bool) (corner : Nat → Nat → V) (np M : Nat) (hP : 0 < np)
    (space : Space R) (ht : initElementTree near corner np M = some space.t)
    (hT : space.trans.rows = 2 * ((space.P + 1) * (space.P + 1) * space.t.nElements)) (junk : Nat → R) (Q : Cubature ℝ) (g : V3 → Fin 3 → R)
    (cj : R → R) :
    ∃ els v, elements space.t = some els ∧ compute junk (rotatedTangential cj g) space Q = some v ∧ v.rows = space.trans.cols ∧ v.cols = 1 ∧
      ∀ c < space.trans.cols, v.at' c 0 = surfaceQuad space.t space.geo Q els fun a p => ∑ k, g p.f k *
        discreteField space.trans (unitVec space.trans.cols c) space.t.nElements space.P (space.t.id a) (getH space.t a) p.xi p.dx p.dy k := by
  obtain ⟨els, v, h1, h2, h3, h4, h5⟩ := load_eq near corner np M hP space ht (rotatedTangential cj g) hT junk Q
    (fun d p => ∑ k, algebraMap ℝ R ((if d = 0 then p.dx else p.dy) k) * g p.f k) (by
    rintro xi w y dx dy c i d h
    simp only [rotatedTangential]
    rw [addTangential_eq _ _ _ _ _ _ _ h]
    have ho : ∑ k, algebraMap ℝ R ((if d = 0 then dx else dy) k) * algebraMap ℝ R (normalized (cross3 dx dy) k) = 0 := by
      simp only [← map_mul, ← map_sum]
      split_ifs
      · rw [(normalized_orth dx dy).1, map_zero]
      · rw [(normalized_orth dx dy).2, map_zero]
    set fn := ∑ k, cj (g y k) * algebraMap ℝ R (normalized (cross3 dx dy) k)
    have : ∑ k, algebraMap ℝ R ((if d = 0 then dx else dy) k) * ((g y k - fn * algebraMap ℝ R (normalized (cross3 dx dy) k)) * algebraMap ℝ R w) =
        algebraMap ℝ R w * (∑ k, algebraMap ℝ R ((if d = 0 then dx else dy) k) * g y k) -
        algebraMap ℝ R w * fn * ∑ k, algebraMap ℝ R ((if d = 0 then dx else dy) k) * algebraMap ℝ R (normalized (cross3 dx dy) k) := by
      rw [mul_sum, mul_sum, ← sum_sub_distrib]
      refine sum_congr rfl fun k _ => ?_
      ring
    simp only at this ⊢
    rw [this, ho, mul_zero, sub_zero])
  refine ⟨els, v, h1, h2, h3, h4, fun c hc => (h5 c hc).trans ?_⟩
  congr 1
  funext a p
  have : (rotatedTangential cj g).vd = 2 := rfl
  rw [this]
  simp only [sum_range_succ, sum_range_zero, zero_add, one_ne_zero, if_true, if_false, Fin.sum_univ_three, discreteField]
  ring

end Bembel.Props
