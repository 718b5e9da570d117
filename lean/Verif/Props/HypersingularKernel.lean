import Verif.Props.Hypersingular
import Verif.Props.SpaceExact
import Verif.Props.WellPosed
import Verif.Props.Knots
import Verif.Lemmas.ProjectorSpan
import Verif.Props.SurfaceRate
import Verif.Props.Degrees
import Mathlib.Topology.Order.DenselyOrdered
/-! # C92: the kernel of the hypersingular operator on continuous functions -/

namespace Bembel.Props
open Finset Mesh H2 Spec Util Duffy SuperSpace MeasureTheory FunctionEval
open scoped ContDiff

namespace Hypersingular
open Bembel.Singular SingleLayer Bembel.Projector

/-- The sum of the tensor product B-splines is one. -/
theorem unity (q n r : Nat) (hq : 1 ≤ q) (hn : 0 < n) (hr : 1 ≤ r) (x : ℝ × ℝ) (h1 : 0 ≤ x.1) (h2 : x.1 ≤ 1) (h3 : 0 ≤ x.2) (h4 : x.2 ≤ 1) :
    ∑ c ∈ range (splineDim q n r * splineDim q n r), patchSpline q q n r c x = 1 := by
  have one : ∀ y : ℝ, 0 ≤ y → y ≤ 1 → ∑ i ∈ range (splineDim q n r), uniformSpline q n r i y = 1 := fun y y0 y1 => by
    refine C09_partition_of_unity (splineDim q n r) (q - 1) (uniformKnot q n r) y (uniformKnot_mono q n r hn hr) ?_ ?_ ?_ ?_
    · unfold splineDim; omega
    · rw [knot_dim q n r hn]
      have := (knot_span q n r (n - 1) hq hr (by omega)).1
      rw [show splineDim q n r - 1 = q - 1 + r * (n - 1) by unfold splineDim; rw [Nat.mul_comm r]; omega, this]
      have n0 : (0 : ℝ) < n := Nat.cast_pos.2 hn
      rw [div_lt_one n0]
      exact_mod_cast (by omega : n - 1 < n)
    · refine le_trans (le_of_eq ?_) y0
      unfold uniformKnot
      rw [if_pos (by omega)]
    · rw [knot_dim q n r hn]; exact y1
  have d0 : 0 < splineDim q n r := by unfold splineDim; omega
  rw [sum_range_mul]
  calc _ = ∑ j ∈ range (splineDim q n r), ∑ i ∈ range (splineDim q n r), uniformSpline q n r i x.1 * uniformSpline q n r j x.2 := by
        refine sum_congr rfl fun j _ => sum_congr rfl fun i hi => ?_
        have hi := mem_range.1 hi
        unfold patchSpline
        rw [Nat.mul_comm j, Nat.mul_add_mod, Nat.mod_eq_of_lt hi, Nat.mul_add_div d0, Nat.div_eq_of_lt hi, Nat.add_zero]
    _ = _ := by
        rw [sum_comm, ← sum_mul_sum, one _ h1 h2, one _ h3 h4, one_mul]

/-- Numbers that agree on elements that face each other agree on all elements of a connected surface. -/
theorem connected {V : Type} (corner : Nat → Nat → V) (P M : Nat) (hconn : PatchesConnected corner P) (ho : OrientedPatches corner P) (c : Addr → ℝ)
    (h : ∀ a b, IsNode P M a → IsNode P M b → ∀ i k, Facing corner M i k a b → c a = c b) :
    ∀ a b, IsNode P M a → IsNode P M b → c a = c b := by
  have two0 : 0 < 2 ^ M := by positivity
  have step : ∀ n : Nat, ∀ a b, IsNode P M a → IsNode P M b → a.1 = b.1 → posX b.2 = 0 → posY b.2 = 0 → posX a.2 + posY a.2 = n → c a = c b := by
    intro n
    induction n with
    | zero =>
      intro a b ha hb hab hx hy hn
      have := pos_inj a.2 b.2 (by rw [ha.2.1, hb.2.1]) ha.2.2 hb.2.2 (by omega) (by omega)
      rw [Prod.ext hab this]
    | succ n ih =>
      intro a b ha hb hab hx hy hn
      have pl := pos_lt a.2
      rw [ha.2.1] at pl
      by_cases h0 : 0 < posX a.2
      · obtain ⟨l, l1, l2, l3, l4⟩ := pos_surj M (posX a.2 - 1) (posY a.2) (by omega) pl.2
        have hn' : IsNode P M (a.1, l) := ⟨ha.1, l1, l2⟩
        refine (h a (a.1, l) ha hn' 3 1 ⟨by omega, by omega, Or.inr ⟨rfl, rfl, Or.inr (Or.inr (Or.inr ⟨rfl, ?_, ?_⟩))⟩⟩).trans
          (ih _ b hn' hb hab hx hy ?_)
        · simp only [l3]; omega
        · simp only [l4]
        · simp only [l3, l4]; omega
      · obtain ⟨l, l1, l2, l3, l4⟩ := pos_surj M (posX a.2) (posY a.2 - 1) pl.1 (by omega)
        have hn' : IsNode P M (a.1, l) := ⟨ha.1, l1, l2⟩
        refine (h a (a.1, l) ha hn' 0 2 ⟨by omega, by omega, Or.inr ⟨rfl, rfl, Or.inl ⟨rfl, ?_, ?_⟩⟩⟩).trans
          (ih _ b hn' hb hab hx hy ?_)
        · simp only [l3]
        · simp only [l4]; omega
        · simp only [l3, l4]; omega
  have patch : ∀ a b, IsNode P M a → IsNode P M b → a.1 = b.1 → c a = c b := fun a b ha hb hab => by
    obtain ⟨l, l1, l2, l3, l4⟩ := pos_surj M 0 0 two0 two0
    exact (step _ a (a.1, l) ha ⟨ha.1, l1, l2⟩ rfl l3 l4 rfl).trans (step _ b (a.1, l) hb ⟨ha.1, l1, l2⟩ hab.symm l3 l4 rfl).symm
  have edge : ∀ p < P, ∀ i < 4, ∀ x < 2 ^ M, ∃ a, IsNode P M a ∧ a.1 = p ∧ OnEdge M i a ∧ alongEdge M i a = x := by
    intro p hp i hi x hx
    obtain rfl | rfl | rfl | rfl : i = 0 ∨ i = 1 ∨ i = 2 ∨ i = 3 := by omega
    · obtain ⟨l, l1, l2, l3, l4⟩ := pos_surj M x 0 hx two0
      exact ⟨(p, l), ⟨hp, l1, l2⟩, rfl, Or.inl ⟨rfl, l4⟩, by simp [alongEdge, l3]⟩
    · obtain ⟨l, l1, l2, l3, l4⟩ := pos_surj M (2 ^ M - 1) x (by omega) hx
      exact ⟨(p, l), ⟨hp, l1, l2⟩, rfl, Or.inr (Or.inl ⟨rfl, by simp only [l3]; omega⟩), by simp [alongEdge, l4]⟩
    · obtain ⟨l, l1, l2, l3, l4⟩ := pos_surj M (2 ^ M - 1 - x) (2 ^ M - 1) (by omega) (by omega)
      exact ⟨(p, l), ⟨hp, l1, l2⟩, rfl, Or.inr (Or.inr (Or.inl ⟨rfl, by simp only [l4]; omega⟩)), by simp [alongEdge, l3]; omega⟩
    · obtain ⟨l, l1, l2, l3, l4⟩ := pos_surj M 0 (2 ^ M - 1 - x) two0 (by omega)
      exact ⟨(p, l), ⟨hp, l1, l2⟩, rfl, Or.inr (Or.inr (Or.inr ⟨rfl, l3⟩)), by simp [alongEdge, l4]; omega⟩
  intro a b ha hb
  have : ∀ q, Relation.ReflTransGen (fun p q => p < P ∧ q < P ∧ ∃ i < 4, ∃ k < 4, patchEdge corner p i = patchEdge corner q k) a.1 q →
      ∀ b, IsNode P M b → b.1 = q → c a = c b := by
    intro q hq
    induction hq with
    | refl => exact fun b hb h => patch a b ha hb h.symm
    | tail _ hs ih =>
      obtain ⟨hp, hq, i, hi, k, hk, hE⟩ := hs
      rename_i p q _
      intro b hb hbq
      by_cases hpq : p = q
      · exact ih b hb (hbq.trans hpq.symm)
      · obtain ⟨d, d1, d2, d3, d4⟩ := edge p hp i hi 0 two0
        obtain ⟨e, e1, e2, e3, e4⟩ := edge q hq k hk (2 ^ M - 1) (by omega)
        obtain ⟨o1, o2⟩ := ho p hp q hq hpq i hi k hk hE
        rw [ih d d1 d2, h d e d1 e1 i k ⟨hi, hk, Or.inl ⟨by rw [d2, e2]; exact hpq, d3, e3, Or.inr ⟨by rw [d2, e2]; exact o1, by rw [d2, e2]; exact o2, by omega⟩⟩⟩]
        exact patch e b e1 hb (e2.trans hbq.symm)
  exact this b.1 (hconn a.1 ha.1 b.1 hb.1) b hb rfl

section
variable (near : V3 → V3 → Bool) (corner : Nat → Nat → V3) (P M : Nat) (hP : 0 < P) (hM : 1 ≤ M) (hc : ConformingPatches near corner P)
    (ho : OrientedPatches corner P) (geo : Nat → ℝ × ℝ → V3 × V3 × V3) (hreg : RegularPatches P geo) (hsm : SmoothSurface P geo)
    (hw : Watertight corner P fun p s => (geo p s).1) (hemb : Embedded corner P geo) (hcusp : NoCusps P geo)
    (t : Mesh.Tree ℝ) (ht : initElementTree near corner P M = some t)

/-- A continuous function that is constant on every element is constant. -/
theorem constant_of_elementwise {V : Type} (near : V → V → Bool) (corner : Nat → Nat → V) (hP : 0 < P) (hc : ConformingPatches near corner P) (ho : OrientedPatches corner P)
    (hconn : PatchesConnected corner P) (ht : initElementTree near corner P M = some t)
    (junkT : Nat → ℝ) (junkM : Nat → Nat → ℝ) (solve) (hs : SolvesSystems solve) (p rep : Nat) (hp0 : 0 < p) (hp : p ≤ 19)
    (hrep : 1 ≤ rep) (hrp : rep ≤ p) (T : EMat ℝ) (hT : Ansatz.transformationCont junkT junkM solve t p M P rep = some T) (f : EMat ℝ)
    (h : ElementwiseConstant P M ⟨t, p, geo, T⟩ f) : ∃ c, EqualsConstant P M ⟨t, p, geo, T⟩ f c := by
  classical
  obtain ⟨u, g1, g2, g3, -⟩ := tree_facts (K := ℝ) near corner P M hP
  obtain rfl : u = t := Option.some.inj (g1.symm.trans ht)
  have gh : ∀ a, IsNode P M a → getH u a = 1 / 2 ^ M := fun a ha => by
    obtain ⟨-, e, -⟩ := g2 M le_rfl a (mem_leaves.2 ha)
    unfold getH; rw [e, ha.2.1]
  choose c hcc using h
  have closed : ∀ a (ha : IsNode P M a), ∀ s ∈ Set.Icc (0 : ℝ) 1 ×ˢ Set.Icc (0 : ℝ) 1,
      discreteFunction T f u.nElements p 0 (u.id a) (getH u a) s = c a ha := fun a ha => by
    have e : Set.EqOn (discreteFunction T f u.nElements p 0 (u.id a) (getH u a)) (fun _ => c a ha) (Set.Ioo (0 : ℝ) 1 ×ˢ Set.Ioo (0 : ℝ) 1) :=
      fun s hs => hcc a ha s hs.1.1 hs.1.2 hs.2.1 hs.2.2
    have := e.closure (SurfaceRate.fun_smooth T f u.nElements p 0 (u.id a) (getH u a)).continuous continuous_const
    rwa [closure_prod_eq, closure_Ioo (by norm_num)] at this
  have onEdge : ∀ i : Nat, ∀ s ∈ Set.Icc (0 : ℝ) 1, edgePoint i s ∈ Set.Icc (0 : ℝ) 1 ×ˢ Set.Icc (0 : ℝ) 1 := fun i s hs => by
    unfold edgePoint
    obtain ⟨h1, h2⟩ := hs
    split_ifs <;> refine ⟨⟨?_, ?_⟩, ?_, ?_⟩ <;> simp only <;> linarith
  let C : Addr → ℝ := fun a => if ha : IsNode P M a then c a ha else 0
  have C1 : ∀ a (ha : IsNode P M a), C a = c a ha := fun a ha => dif_pos ha
  have key := connected corner P M hconn ho C fun a b ha hb i k hf => by
    have := C64_continuous (R := ℝ) near corner junkT junkM solve hs p M P rep hP hp0 hp hrep hrp hc ho u ht T hT f a b ha hb i k hf (1 / 2)
    rw [WellPosed.ofReal_self, ← g3, ← gh a ha, closed a ha _ (onEdge i _ ⟨by norm_num, by norm_num⟩), gh a ha, ← gh b hb,
      closed b hb _ (onEdge k _ ⟨by norm_num, by norm_num⟩)] at this
    rw [C1 a ha, C1 b hb, this]
  obtain ⟨l, l1, l2, -, -⟩ := pos_surj M 0 0 (by positivity) (by positivity)
  have h0 : IsNode P M (0, l) := ⟨hP, l1, l2⟩
  exact ⟨c _ h0, fun a ha s s1 s2 s3 s4 => by
    have := key a _ ha h0
    rw [C1 a ha, C1 _ h0] at this
    rw [← this]
    exact hcc a ha s s1 s2 s3 s4⟩

/-- The continuous spaces contain the constant functions. -/
theorem constant_mem {V : Type} (near : V → V → Bool) (corner : Nat → Nat → V) (hP : 0 < P) (hc : ConformingPatches near corner P) (ho : OrientedPatches corner P)
    (ht : initElementTree near corner P M = some t)
    (junkT : Nat → ℝ) (junkM : Nat → Nat → ℝ) (solve) (hs : SolvesSystems solve) (p rep : Nat) (hp0 : 0 < p) (hp : p ≤ 4)
    (hrep : 1 ≤ rep) (hrp : rep ≤ p) (T : EMat ℝ) (hT : Ansatz.transformationCont junkT junkM solve t p M P rep = some T) :
    ∃ e : EMat ℝ, e.rows = T.cols ∧ e.cols = 1 ∧ EqualsConstant P M ⟨t, p, geo, T⟩ e 1 := by
  obtain ⟨u, g1, g2, g3, -⟩ := tree_facts (K := ℝ) near corner P M hP
  obtain rfl : u = t := Option.some.inj (g1.symm.trans ht)
  obtain ⟨e, e1, e2, e3⟩ := (C80_continuous (R := ℝ) near corner junkT junkM solve hs p M P rep hP hp0 hp hrep hrp hc ho u ht T hT).1 (fun _ _ => 1)
    (fun q _ => ⟨fun _ => 1, fun x h1 h2 h3 h4 => by
      have := unity (p + 1) (2 ^ M) rep (by omega) (by positivity) hrep x h1 h2 h3 h4
      simp only [smul_eq_mul, mul_one]
      exact this.symm⟩) (fun _ _ _ _ _ _ _ _ _ _ _ _ _ _ _ => rfl)
  refine ⟨e, e1, e2, fun a ha s s1 s2 s3 s4 => ?_⟩
  have := e3 a ha s s1.le s2 s3.le s4
  rw [WellPosed.ofReal_self, ← g3] at this
  obtain ⟨-, h, -⟩ := g2 M le_rfl a (mem_leaves.2 ha)
  have gh : getH u a = 1 / 2 ^ M := by unfold getH; rw [h, ha.2.1]
  rw [← gh] at this
  exact this

end
end Hypersingular
end Bembel.Props
