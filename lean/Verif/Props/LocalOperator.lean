import Verif.Lemmas.ElementSquare
import Verif.Props.LinearForm
/-!
# Property theorems C62: mass matrices and the Laplace-Beltrami operator
-/

set_option linter.unusedSectionVars false

namespace Bembel.Props
open Finset Bembel.Mesh Bembel.Spec Bembel.FunctionEval Bembel.SuperSpace Bembel.LocalOperator

/-- `T^t A T` for a matrix given by triplets. -/
theorem sandwich (n : Nat) (T : EMat ℝ) (l : List (Nat × Nat × ℝ)) (hl : ∀ x ∈ l, x.1 < n ∧ x.2.1 < n) (c d : Nat) :
    ∑ r ∈ range n, T.at' r c * ∑ s ∈ range n, (l.map fun x => if x.1 = r ∧ x.2.1 = s then x.2.2 else 0).sum * T.at' s d =
      (l.map fun x => T.at' x.1 c * x.2.2 * T.at' x.2.1 d).sum := by
  induction l with
  | nil => simp
  | cons x l ih =>
    rw [List.map_cons, List.sum_cons, ← ih fun y hy => hl y (List.mem_cons_of_mem _ hy)]
    have hx := hl x (by simp)
    have e : ∀ r s, (if x.1 = r ∧ x.2.1 = s then x.2.2 else 0) = if x.1 = r then (if x.2.1 = s then x.2.2 else 0) else 0 := by
      intro r s; split_ifs <;> simp_all
    simp only [List.map_cons, List.sum_cons, add_mul, sum_add_distrib, mul_add, e]
    congr 1
    rw [sum_eq_single x.1 (by
      intro r _ hr
      have : ∀ s, (if x.1 = r then (if x.2.1 = s then x.2.2 else 0) else 0) = 0 := fun s => if_neg (Ne.symm hr)
      simp only [this, zero_mul, sum_const_zero, mul_zero]) (by intro h; exact absurd (mem_range.2 hx.1) h)]
    simp only [if_true]
    rw [sum_eq_single x.2.1 (by
      intro s _ hs
      rw [if_neg (Ne.symm hs), zero_mul]) (by intro h; exact absurd (mem_range.2 hx.2) h)]
    simp only [if_true]
    ring

/-- Sum of a list of lists. -/
theorem sum_flatMap {α β : Type} (l : List α) (g : α → List β) (f : β → ℝ) :
    ((l.flatMap g).map f).sum = (l.map fun a => ((g a).map f).sum).sum := by
  induction l with
  | nil => simp
  | cons a l ih => simp [ih]

theorem sum_listRange (n : Nat) (f : Nat → ℝ) : ((List.range n).map f).sum = ∑ i ∈ range n, f i := by
  induction n with
  | zero => simp
  | succ n ih => rw [List.range_succ, List.map_append, List.sum_append, ih, sum_range_succ]; simp

/-- Matrix of a scalar local operator whose integrand adds weight times `G`. -/
theorem local_eq {V : Type} (near : V → V → Bool) (corner : Nat → Nat → V) (np M : Nat) (hP : 0 < np)
    (space : Space ℝ) (ht : initElementTree near corner np M = some space.t) (op : Op) (hvd : op.vd = 1)
    (hT : space.trans.rows = 1 * ((space.P + 1) * (space.P + 1) * space.t.nElements)) (junk : Nat → ℝ) (Q : Cubature ℝ)
    (G : Nat → Nat → SurfPt → ℝ)
    (hG : ∀ (xi : ℝ × ℝ) (w : ℝ) (y dx dy : V3) (c : Nat → Nat → ℝ) (i j : Nat), i < (space.P + 1) * (space.P + 1) ∧
      j < (space.P + 1) * (space.P + 1) →
      op.integrand junk space.P space.t.maxLevel ⟨xi, w, y, dx, dy⟩ ⟨xi, w, y, dx, dy⟩ c i j = c i j + w * G i j ⟨xi, 1, y, dx, dy⟩) :
    ∃ els A, elements space.t = some els ∧ LocalOperator.compute junk op space Q = some A ∧ A.rows = space.trans.cols ∧
      A.cols = space.trans.cols ∧ ∀ c d, A.at' c d = (els.map fun a => ∑ q ∈ range Q.size, Q.w q *
        ∑ i ∈ range ((space.P + 1) * (space.P + 1)), ∑ j ∈ range ((space.P + 1) * (space.P + 1)),
          space.trans.at' ((space.P + 1) * (space.P + 1) * space.t.id a + i) c * G i j (elementPoint space.t space.geo a (Q.xi q)) *
          space.trans.at' ((space.P + 1) * (space.P + 1) * space.t.id a + j) d).sum := by
  obtain ⟨t, j1, j2, els, j3, j4, j5, j6⟩ := C20_uniform_mesh (K := ℝ) near corner np M hP
  obtain rfl : space.t = t := Option.some.inj (ht.symm.trans j1)
  have hlt : ∀ a ∈ els, space.t.id a < space.t.nElements := by
    intro a ha
    obtain ⟨m, hm1, hm2⟩ := List.getElem_of_mem ha
    rw [(j6 m a (by rw [List.getElem?_eq_getElem hm1, hm2])).1, j2, ← j4]; exact hm1
  set pp := (space.P + 1) * (space.P + 1) with hpp
  have htrip : ∀ a, triplets junk op space Q a = (List.range pp).flatMap fun ii => (List.range pp).map fun jj =>
      (pp * space.t.id a + jj, pp * space.t.id a + ii, elementMat junk op space Q a jj ii) := by
    intro a
    unfold triplets
    rw [hvd]
    simp [← hpp]
  have hl : ∀ x ∈ els.flatMap (triplets junk op space Q), x.1 < op.vd * pp * space.t.nElements ∧ x.2.1 < op.vd * pp * space.t.nElements := by
    intro x hx
    obtain ⟨a, ha, hx⟩ := List.mem_flatMap.1 hx
    rw [htrip] at hx
    obtain ⟨ii, hii, hx⟩ := List.mem_flatMap.1 hx
    obtain ⟨jj, hjj, rfl⟩ := List.mem_map.1 hx
    rw [List.mem_range] at hii hjj
    have := Nat.mul_le_mul_left pp (Nat.succ_le_of_lt (hlt a ha))
    rw [Nat.mul_succ] at this
    rw [hvd, one_mul]
    simp only
    omega
  refine ⟨els, ?_⟩
  unfold LocalOperator.compute
  rw [j3]
  simp only [Option.bind_eq_bind, Option.bind_some, ← hpp, fromTriplets]
  rw [if_pos (by rw [List.all_eq_true]; intro x hx; simp only [Bool.and_eq_true, decide_eq_true_eq]; exact hl x hx)]
  have hn : op.vd * pp * space.t.nElements = space.trans.rows := by rw [hT, hvd, Nat.mul_assoc]
  simp only [Option.bind_some, EMat.mul]
  rw [if_pos hn]
  simp only [Option.bind_some, EMat.tr]
  rw [if_pos hn.symm]
  refine ⟨_, trivial, rfl, rfl, rfl, ?_⟩
  intro c d
  simp only
  rw [← hn, sandwich _ space.trans _ hl, sum_flatMap]
  congr 1
  refine List.map_congr_left fun a ha => ?_
  rw [htrip, sum_flatMap, sum_listRange]
  simp only [List.map_map, Function.comp_def, sum_listRange]
  have hE : ∀ i < pp, ∀ j < pp, elementMat junk op space Q a i j = ∑ q ∈ range Q.size,
      Q.w q * G i j (elementPoint space.t space.geo a (Q.xi q)) := by
    intro i hi j hj
    unfold elementMat
    have := fold_add_entry (R := ℝ) (fun (x : (ℝ × ℝ) × ℝ) c => op.integrand junk space.P space.t.maxLevel
      (map2surface space.t space.geo a x.1 x.2) (map2surface space.t space.geo a x.1 x.2) c)
      (fun x i j => x.2 * G i j (elementPoint space.t space.geo a x.1))
      (fun i j => i < pp ∧ j < pp) (fun x c i d h => hG x.1 x.2 _ _ _ c i d h)
      (fun q => (Q.xi q, Q.w q)) Q.size (fun _ _ => 0) i j ⟨hi, hj⟩
    simp only [zero_add] at this
    exact this
  rw [sum_comm]
  rw [sum_congr rfl fun i hi => sum_congr rfl fun j hj => by rw [hE i (mem_range.1 hi) j (mem_range.1 hj)]]
  simp only [mul_sum, sum_mul]
  rw [sum_congr rfl fun i _ => sum_comm, sum_comm]
  refine sum_congr rfl fun q _ => sum_congr rfl fun i _ => sum_congr rfl fun j _ => ?_
  ring

/-- C62, mass matrix: entry `(c, d)` is the quadrature on the surface of the product of the ansatz functions `c` and `d` (times area
element), for every transformation matrix and every quadrature rule. -/
theorem C62_mass {V : Type} (near : V → V → Bool) (corner : Nat → Nat → V) (np M : Nat) (hP : 0 < np)
    (space : Space ℝ) (ht : initElementTree near corner np M = some space.t)
    (hT : space.trans.rows = 1 * ((space.P + 1) * (space.P + 1) * space.t.nElements)) (junk : Nat → ℝ) (Q : Cubature ℝ) :
    ∃ els A, elements space.t = some els ∧ LocalOperator.compute junk identity space Q = some A ∧ A.rows = space.trans.cols ∧
      A.cols = space.trans.cols ∧ ∀ c < space.trans.cols, ∀ d < space.trans.cols,
        A.at' c d = surfaceQuad space.t space.geo Q els fun a p => ‖cross3 p.dx p.dy‖ *
          discreteFunction space.trans (unitVec space.trans.cols c) space.t.nElements space.P 0 (space.t.id a) (getH space.t a) p.xi *
          discreteFunction space.trans (unitVec space.trans.cols d) space.t.nElements space.P 0 (space.t.id a) (getH space.t a) p.xi := by
  obtain ⟨els, A, h1, h2, h3, h4, h5⟩ := local_eq near corner np M hP space ht identity rfl hT junk Q
    (fun i j p => ‖cross3 p.dx p.dy‖ * (shape space.P i p.xi * shape space.P j p.xi)) (by
    rintro xi w y dx dy c i j h
    simp only [identity]
    rw [addScaledBasisInteraction_eq, if_pos h]
    simp only [Algebra.algebraMap_self, RingHom.id_apply]
    ring)
  refine ⟨els, A, h1, h2, h3, h4, fun c hc d hd => (h5 c d).trans ?_⟩
  unfold surfaceQuad
  congr 1
  refine List.map_congr_left fun a _ => sum_congr rfl fun q _ => ?_
  have hh : getH space.t a ≠ 0 := by unfold getH; positivity
  simp only [discreteFunction, localCoeff_unit _ _ _ _ _ _ _ hc, localCoeff_unit _ _ _ _ _ _ _ hd, Algebra.algebraMap_self, RingHom.id_apply,
    Nat.zero_mul, Nat.zero_add]
  have e : (elementPoint space.t space.geo a (Q.xi q)).xi = Q.xi q := rfl
  rw [e]
  set κ := ‖cross3 (elementPoint space.t space.geo a (Q.xi q)).dx (elementPoint space.t space.geo a (Q.xi q)).dy‖
  set X := fun i => space.trans.at' ((space.P + 1) * (space.P + 1) * space.t.id a + i) c * shape space.P i (Q.xi q) with hX
  set Y := fun i => space.trans.at' ((space.P + 1) * (space.P + 1) * space.t.id a + i) d * shape space.P i (Q.xi q) with hY
  have e2 : ∑ i ∈ range ((space.P + 1) * (space.P + 1)), ∑ j ∈ range ((space.P + 1) * (space.P + 1)),
      space.trans.at' ((space.P + 1) * (space.P + 1) * space.t.id a + i) c * (κ * (shape space.P i (Q.xi q) * shape space.P j (Q.xi q))) *
          space.trans.at' ((space.P + 1) * (space.P + 1) * space.t.id a + j) d =
      κ * ((∑ i ∈ range ((space.P + 1) * (space.P + 1)), X i) * ∑ j ∈ range ((space.P + 1) * (space.P + 1)), Y j) := by
    rw [sum_mul_sum, mul_sum]
    refine sum_congr rfl fun i _ => ?_
    rw [mul_sum]
    refine sum_congr rfl fun j _ => ?_
    simp only [hX, hY]
    ring
  rw [e2]
  field_simp

/-- Local curls (as the code computes them) and surface gradients have the same inner products. -/
theorem curl_gradient (dx dy : V3) (hreg : cross3 dx dy ≠ 0) (ux uy vx vy : ℝ) (g h : V3) (hg : IsSurfaceGradient dx dy ux uy g)
    (hh : IsSurfaceGradient dx dy vx vy h) :
    inner ℝ dy dy * (ux * vx) - inner ℝ dy dx * (ux * vy) - inner ℝ dx dy * (uy * vx) + inner ℝ dx dx * (uy * vy) =
      ‖cross3 dx dy‖ ^ 2 * inner ℝ g h := by
  obtain ⟨⟨α, β, rfl⟩, rfl, rfl⟩ := hg
  obtain ⟨⟨γ, δ, rfl⟩, rfl, rfl⟩ := hh
  have hn : ‖cross3 dx dy‖ ^ 2 = inner ℝ dx dx * inner ℝ dy dy - inner ℝ dx dy * inner ℝ dx dy := by
    rw [← real_inner_self_eq_norm_sq]
    simp only [PiLp.inner_apply, Fin.sum_univ_three, cross3, RCLike.inner_apply, conj_trivial]
    simp
    ring
  rw [hn]
  simp only [inner_add_left, inner_add_right, inner_smul_left, inner_smul_right, conj_trivial, real_inner_comm dx dy]
  ring

/-- C62, Laplace-Beltrami operator: entry `(c, d)` is the quadrature of the inner product of the surface gradients of the ansatz functions
`c` and `d` (times area element), at regular points of the surface. -/
theorem C62_laplace_beltrami {V : Type} (near : V → V → Bool) (corner : Nat → Nat → V) (np M : Nat) (hP : 0 < np)
    (space : Space ℝ) (ht : initElementTree near corner np M = some space.t)
    (hT : space.trans.rows = 1 * ((space.P + 1) * (space.P + 1) * space.t.nElements)) (junk : Nat → ℝ) (Q : Cubature ℝ)
    (hQ : ∀ j < Q.size, Spec.ClosedSquare (Q.xi j)) (hreg : Spec.RegularPatches np space.geo)
    (grad : Nat → Addr → SurfPt → V3)
    (hgrad : ∀ c < space.trans.cols, ∀ (a : Addr) (s : ℝ × ℝ), IsNode np M a → Spec.ClosedSquare s → let p := elementPoint space.t space.geo a s
      IsSurfaceGradient p.dx p.dy
        (discreteDx space.trans (unitVec space.trans.cols c) space.t.nElements space.P 0 (space.t.id a) (getH space.t a) s)
        (discreteDy space.trans (unitVec space.trans.cols c) space.t.nElements space.P 0 (space.t.id a) (getH space.t a) s) (grad c a p)) :
    ∃ els A, elements space.t = some els ∧ LocalOperator.compute junk laplaceBeltrami space Q = some A ∧ A.rows = space.trans.cols ∧
      A.cols = space.trans.cols ∧ ∀ c < space.trans.cols, ∀ d < space.trans.cols,
        A.at' c d = surfaceQuad space.t space.geo Q els fun a p => ‖cross3 p.dx p.dy‖ * inner ℝ (grad c a p) (grad d a p) := by
  have hreg' : ∀ a s, IsNode np M a → Spec.ClosedSquare s → Regular (elementPoint space.t space.geo a s) := fun a s ha hs =>
    node_regular near corner np M hP space.t ht space.geo hreg M le_rfl a ha s hs 1
  obtain ⟨t', k1, k2, k3, k4, k5, k6, k7⟩ := tree_facts (K := ℝ) near corner np M hP
  obtain rfl : space.t = t' := Option.some.inj (ht.symm.trans k1)
  obtain ⟨els, A, h1, h2, h3, h4, h5⟩ := local_eq near corner np M hP space ht laplaceBeltrami rfl hT junk Q
    (fun i j p => ‖cross3 p.dx p.dy‖ / (1 / 2 ^ M * (1 / 2 ^ M)) * inner ℝ (curl junk space.P p i) (curl junk space.P p j)) (by
    rintro xi w y dx dy c i j h
    simp only [laplaceBeltrami, addScaledSurfaceGradientInteraction]
    rw [addScaledSurfaceCurlInteraction_eq, if_pos h, k4]
    simp only [Algebra.algebraMap_self, RingHom.id_apply, curl]
    ring)
  refine ⟨els, A, h1, h2, h3, h4, fun c hc d hd => (h5 c d).trans ?_⟩
  unfold surfaceQuad
  congr 1
  refine List.map_congr_left fun a ha => sum_congr rfl fun q hq => ?_
  rw [elements_eq space.t np M hP k3 k6] at h1
  rw [← Option.some.inj h1] at ha
  have hq := hQ q (mem_range.1 hq)
  have hn := mem_leaves.1 ha
  have hh : getH space.t a = 1 / 2 ^ M := by
    obtain ⟨g1, g2, -⟩ := k2 M le_rfl a ha
    unfold getH; rw [g2, (mem_leaves.1 ha).2.1]
  have r := hreg' a (Q.xi q) hn hq
  have hκ : ‖cross3 (elementPoint space.t space.geo a (Q.xi q)).dx (elementPoint space.t space.geo a (Q.xi q)).dy‖ ≠ 0 := norm_ne_zero_iff.2 r
  have key := curl_gradient _ _ r _ _ _ _ _ _ (hgrad c hc a (Q.xi q) hn hq) (hgrad d hd a (Q.xi q) hn hq)
  simp only [discreteDx, discreteDy, localCoeff_unit _ _ _ _ _ _ _ hc, localCoeff_unit _ _ _ _ _ _ _ hd, Algebra.algebraMap_self, RingHom.id_apply,
    Nat.zero_mul, Nat.zero_add] at key
  set p := elementPoint space.t space.geo a (Q.xi q) with hp
  set κ := ‖cross3 p.dx p.dy‖
  have hcurl : ∀ i < (space.P + 1) * (space.P + 1), ∀ j < (space.P + 1) * (space.P + 1),
      inner ℝ (curl junk space.P p i) (curl junk space.P p j) = (1 / κ ^ 2) * (inner ℝ p.dy p.dy * (shapeDx space.P i (Q.xi q) * shapeDx space.P j (Q.xi q)) -
      inner ℝ p.dy p.dx * (shapeDx space.P i (Q.xi q) * shapeDy space.P j (Q.xi q)) -
      inner ℝ p.dx p.dy * (shapeDy space.P i (Q.xi q) * shapeDx space.P j (Q.xi q)) +
      inner ℝ p.dx p.dx * (shapeDy space.P i (Q.xi q) * shapeDy space.P j (Q.xi q))) := by
    intro i hi j hj
    have e := curl_inner junk space.P p p r r i j hi hj
    have e' : p.xi = Q.xi q := rfl
    rw [e'] at e
    rw [← e]
    change _ = 1 / κ ^ 2 * (κ * κ * _)
    field_simp
  set Tc := fun i => space.trans.at' ((space.P + 1) * (space.P + 1) * space.t.id a + i) c
  set Td := fun i => space.trans.at' ((space.P + 1) * (space.P + 1) * space.t.id a + i) d
  set Xc := ∑ i ∈ range ((space.P + 1) * (space.P + 1)), Tc i * shapeDx space.P i (Q.xi q) with hXc
  set Yc := ∑ i ∈ range ((space.P + 1) * (space.P + 1)), Tc i * shapeDy space.P i (Q.xi q) with hYc
  set Xd := ∑ i ∈ range ((space.P + 1) * (space.P + 1)), Td i * shapeDx space.P i (Q.xi q) with hXd
  set Yd := ∑ i ∈ range ((space.P + 1) * (space.P + 1)), Td i * shapeDy space.P i (Q.xi q) with hYd
  have e2 : ∑ i ∈ range ((space.P + 1) * (space.P + 1)), ∑ j ∈ range ((space.P + 1) * (space.P + 1)),
      Tc i * (κ / (1 / 2 ^ M * (1 / 2 ^ M)) * inner ℝ (curl junk space.P p i) (curl junk space.P p j)) * Td j =
      κ / (1 / 2 ^ M * (1 / 2 ^ M)) * (1 / κ ^ 2) * (inner ℝ p.dy p.dy * (Xc * Xd) - inner ℝ p.dy p.dx * (Xc * Yd) -
        inner ℝ p.dx p.dy * (Yc * Xd) + inner ℝ p.dx p.dx * (Yc * Yd)) := by
    rw [hXc, hYc, hXd, hYd, sum_mul_sum, sum_mul_sum, sum_mul_sum, sum_mul_sum]
    simp only [mul_sum, ← sum_sub_distrib, ← sum_add_distrib]
    refine sum_congr rfl fun i hi => sum_congr rfl fun j hj => ?_
    rw [hcurl i (mem_range.1 hi) j (mem_range.1 hj)]
    ring
  rw [e2]
  have key2 : inner ℝ (grad c a p) (grad d a p) = (1 / getH space.t a ^ 2) * (1 / getH space.t a ^ 2) * (1 / κ ^ 2) *
      (inner ℝ p.dy p.dy * (Xc * Xd) - inner ℝ p.dy p.dx * (Xc * Yd) -
        inner ℝ p.dx p.dy * (Yc * Xd) + inner ℝ p.dx p.dx * (Yc * Yd)) := by
    have : inner ℝ (grad c a p) (grad d a p) = (1 / κ ^ 2) * (κ ^ 2 * inner ℝ (grad c a p) (grad d a p)) := by field_simp
    rw [this, ← key]
    ring
  beta_reduce
  have hκe : ‖cross3 p.dx p.dy‖ = κ := rfl
  rw [key2, hh, hκe]
  simp only [Algebra.algebraMap_self, RingHom.id_apply]
  field_simp

/-- A function is the combination of the ansatz functions with its degrees of freedom. -/
theorem discreteFunction_expand (T f : EMat ℝ) (nE P d n : Nat) (h : ℝ) (s : ℝ × ℝ) :
    ∑ c ∈ range T.cols, f.at' c 0 * discreteFunction T (unitVec T.cols c) nE P d n h s = discreteFunction T f nE P d n h s := by
  simp only [discreteFunction]
  rw [sum_congr rfl fun c hc => by rw [sum_congr rfl fun i _ => by rw [localCoeff_unit _ _ _ _ _ _ _ (mem_range.1 hc)]]]
  simp only [localCoeff, mul_sum, sum_mul]
  rw [sum_comm]
  refine sum_congr rfl fun i _ => sum_congr rfl fun c _ => ?_
  ring

theorem surfaceQuad_sum (t : Mesh.Tree ℝ) (geo : Nat → ℝ × ℝ → V3 × V3 × V3) (Q : Cubature ℝ) (els : List Addr) (n : Nat) (f : Nat → ℝ)
    (g : Nat → Addr → SurfPt → ℝ) :
    ∑ c ∈ range n, f c * surfaceQuad t geo Q els (g c) = surfaceQuad t geo Q els fun a p => ∑ c ∈ range n, f c * g c a p := by
  induction n with
  | zero => simp [surfaceQuad]
  | succ n ih =>
    rw [sum_range_succ, ih]
    have := surfaceQuad_lin t geo Q els 1 (f n) (fun a p => ∑ c ∈ range n, f c * g c a p) (g n)
      (fun a p => ∑ c ∈ range (n + 1), f c * g c a p) (by intro a p; rw [sum_range_succ, one_mul])
    rw [this, one_mul]

theorem surfaceQuad_congr (t : Mesh.Tree ℝ) (geo : Nat → ℝ × ℝ → V3 × V3 × V3) (Q : Cubature ℝ) (els : List Addr)
    (g g' : Addr → SurfPt → ℝ) (h : ∀ a ∈ els, ∀ j < Q.size, g a (elementPoint t geo a (Q.xi j)) = g' a (elementPoint t geo a (Q.xi j))) :
    surfaceQuad t geo Q els g = surfaceQuad t geo Q els g' := by
  unfold surfaceQuad
  congr 1
  refine List.map_congr_left fun a ha => sum_congr rfl fun j hj => ?_
  rw [h a ha j (mem_range.1 hj)]

theorem surfaceQuad_nonneg (t : Mesh.Tree ℝ) (geo : Nat → ℝ × ℝ → V3 × V3 × V3) (Q : Cubature ℝ) (els : List Addr)
    (hQ : ∀ j < Q.size, 0 ≤ Q.w j) (g : Addr → SurfPt → ℝ) (h : ∀ a p, 0 ≤ g a p) : 0 ≤ surfaceQuad t geo Q els g := by
  unfold surfaceQuad
  refine List.sum_nonneg ?_
  intro x hx
  obtain ⟨a, _, rfl⟩ := List.mem_map.1 hx
  refine sum_nonneg fun j hj => mul_nonneg ?_ (h _ _)
  have := hQ j (mem_range.1 hj)
  simp only [Algebra.algebraMap_self, RingHom.id_apply]
  positivity

/-- C62: the mass matrix is symmetric; for every vector `f` its quadratic form is the quadrature of the square of the function of `f`, thus
nonnegative for quadrature rules with nonnegative weights; and mass matrix times `f` is the load vector of every data function `g` that
agrees with the function of `f` at the quadrature nodes (the scaling of matrices, load vectors and functions is consistent). -/
theorem C62_consistent {V : Type} (near : V → V → Bool) (corner : Nat → Nat → V) (np M : Nat) (hP : 0 < np)
    (space : Space ℝ) (ht : initElementTree near corner np M = some space.t)
    (hT : space.trans.rows = 1 * ((space.P + 1) * (space.P + 1) * space.t.nElements)) (junk junk' : Nat → ℝ) (Q : Cubature ℝ) :
    ∃ els A, elements space.t = some els ∧ LocalOperator.compute junk identity space Q = some A ∧
      (∀ c < space.trans.cols, ∀ d < space.trans.cols, A.at' c d = A.at' d c) ∧
      (∀ f : EMat ℝ, ∑ c ∈ range space.trans.cols, f.at' c 0 * ∑ d ∈ range space.trans.cols, A.at' c d * f.at' d 0 =
        surfaceQuad space.t space.geo Q els fun a p => ‖cross3 p.dx p.dy‖ *
          discreteFunction space.trans f space.t.nElements space.P 0 (space.t.id a) (getH space.t a) p.xi ^ 2) ∧
      ((∀ j < Q.size, 0 ≤ Q.w j) → ∀ f : EMat ℝ, 0 ≤ ∑ c ∈ range space.trans.cols, f.at' c 0 *
        ∑ d ∈ range space.trans.cols, A.at' c d * f.at' d 0) ∧
      ∀ (f : EMat ℝ) (g : V3 → ℝ), (∀ a ∈ els, ∀ j < Q.size, g (elementPoint space.t space.geo a (Q.xi j)).f =
          discreteFunction space.trans f space.t.nElements space.P 0 (space.t.id a) (getH space.t a) (Q.xi j)) →
        ∃ v, LinearForm.compute junk' (LinearForm.dirichlet g) space Q = some v ∧
          ∀ c < space.trans.cols, ∑ d ∈ range space.trans.cols, A.at' c d * f.at' d 0 = v.at' c 0 := by
  obtain ⟨els, A, h1, h2, h3, h4, h5⟩ := C62_mass near corner np M hP space ht hT junk Q
  have hrow : ∀ (f : EMat ℝ) c, c < space.trans.cols → ∑ d ∈ range space.trans.cols, A.at' c d * f.at' d 0 =
      surfaceQuad space.t space.geo Q els fun a p => ‖cross3 p.dx p.dy‖ *
          discreteFunction space.trans (unitVec space.trans.cols c) space.t.nElements space.P 0 (space.t.id a) (getH space.t a) p.xi *
          discreteFunction space.trans f space.t.nElements space.P 0 (space.t.id a) (getH space.t a) p.xi := by
    intro f c hc
    rw [sum_congr rfl fun d hd => by rw [h5 c hc d (mem_range.1 hd), mul_comm], surfaceQuad_sum _ _ _ _ _ (fun d => f.at' d 0)]
    congr 1
    funext a p
    rw [← discreteFunction_expand _ f, mul_sum]
    exact sum_congr rfl fun d _ => by ring
  have hquad : ∀ f : EMat ℝ, ∑ c ∈ range space.trans.cols, f.at' c 0 * ∑ d ∈ range space.trans.cols, A.at' c d * f.at' d 0 =
        surfaceQuad space.t space.geo Q els fun a p => ‖cross3 p.dx p.dy‖ *
          discreteFunction space.trans f space.t.nElements space.P 0 (space.t.id a) (getH space.t a) p.xi ^ 2 := by
    intro f
    rw [sum_congr rfl fun c hc => by rw [hrow f c (mem_range.1 hc)], surfaceQuad_sum _ _ _ _ _ (fun d => f.at' d 0)]
    congr 1
    funext a p
    rw [pow_two]
    nth_rw 3 [← discreteFunction_expand _ f]
    rw [mul_sum, mul_sum]
    exact sum_congr rfl fun d _ => by ring
  refine ⟨els, A, h1, h2, ?_, hquad, ?_, ?_⟩
  · intro c hc d hd
    rw [h5 c hc d hd, h5 d hd c hc]
    congr 1
    funext a p
    ring
  · intro hQ f
    rw [hquad f]
    exact surfaceQuad_nonneg _ _ _ _ hQ _ fun a p => by positivity
  · intro f g hg
    obtain ⟨els', v, k1, k2, k3, k4, k5⟩ := C61_dirichlet near corner np M hP space ht hT junk' Q g
    obtain rfl : els = els' := Option.some.inj (h1.symm.trans k1)
    refine ⟨v, k2, fun c hc => ?_⟩
    rw [hrow f c hc, k5 c hc]
    refine surfaceQuad_congr _ _ _ _ _ _ fun a ha j hj => ?_
    rw [hg a ha j hj]
    have e : (elementPoint space.t space.geo a (Q.xi j)).xi = Q.xi j := rfl
    simp only [Algebra.algebraMap_self, RingHom.id_apply, e]
    ring

end Bembel.Props
