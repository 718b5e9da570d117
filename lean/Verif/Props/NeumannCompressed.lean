import Verif.Props.NeumannSystem
/-! # C92: the Neumann problem with the compressed hypersingular operator -/

namespace Bembel.Props
open Finset Mesh H2 Spec Util Duffy SuperSpace MeasureTheory FunctionEval

namespace Hypersingular
open Bembel.Singular SingleLayer

section
variable (near : V3 → V3 → Bool) (corner : Nat → Nat → V3) (P M : Nat) (hP : 0 < P) (hM : 1 ≤ M) (hc : ConformingPatches near corner P)
    (ho : OrientedPatches corner P) (geo : Nat → ℝ × ℝ → V3 × V3 × V3) (hreg : RegularPatches P geo) (hsm : SmoothSurface P geo)
    (hw : Watertight corner P fun p s => (geo p s).1) (hemb : Embedded corner P geo) (hcusp : NoCusps P geo)
    (t : Mesh.Tree ℝ) (ht : initElementTree near corner P M = some t)
include hP hM hc ho hreg hsm hw hemb hcusp ht

/-- The exact integrals do not depend on the contents of the memory. -/
theorem exact_junk (p : Nat) (jr jk jr' jk' : Nat → ℝ) (a b : Addr) (ha : IsNode P M a) (hb : IsNode P M b) (k l : Nat) (hk : k < (p + 1) * (p + 1))
    (hl : l < (p + 1) * (p + 1)) : exactEntry t Operator.laplaceHyp (map2surface t geo) p M jr jk a b k l =
      exactEntry t Operator.laplaceHyp (map2surface t geo) p M jr' jk' a b k l := by
  obtain ⟨-, e1, f1⟩ := pair_facts near corner P M hP hM hc ho geo hreg hsm hw hemb hcusp t ht p jr jk a b ha hb k l hk hl
  obtain ⟨-, e2, f2⟩ := pair_facts near corner P M hP hM hc ho geo hreg hsm hw hemb hcusp t ht p jr' jk' a b ha hb k l hk hl
  rw [e1, e2]
  refine integral_congr_ae ?_
  filter_upwards [mem_ae] with z hz
  rw [f1 z hz, f2 z hz]

variable (p : Nat) (T : EMat ℝ) (hconst : ∀ f, ElementwiseConstant P M ⟨t, p, geo, T⟩ f → ∃ c, EqualsConstant P M ⟨t, p, geo, T⟩ f c)
    (hind : ∀ f : EMat ℝ, VanishesInside P M ⟨t, p, geo, T⟩ f → ∀ c < T.cols, f.at' c 0 = 0)

include hconst hind in
theorem neumann_compressed (e : EMat ℝ) (he : EqualsConstant P M ⟨t, p, geo, T⟩ e 1) (es : EigenSolver) (hes : SolverCorrect es) (junkB : Nat → V3) (B0 B : Addr → Ball V3)
    (hB : computeElementEnclosings t (fun p s => (geo p s).1) junkB B0 = some B) (eta : ℝ) (heta : 0 ≤ eta) (minLevel : Int) (hm : 0 ≤ minLevel)
    (hdeg : ∀ a b, IsNode P M a → IsNode P M b → pairDegree Operator.laplaceHyp.order p (compareElements t B a b).2 M < 50)
    (hT : T.rows = 1 * ((p + 1) * (p + 1) * t.nElements)) (g : V3 → Fin 3 → ℝ) (hg : SmoothData P geo g) (α : ℝ) (hα : 0 < α) :
    SolvesNeumannCompressed es B P M eta minLevel ⟨t, p, geo, T⟩ g α := by
  obtain ⟨t', k1, -, k3, -, -, k6, -⟩ := tree_facts (K := ℝ) near corner P M hP
  obtain rfl : t = t' := Option.some.inj (ht.symm.trans k1)
  obtain ⟨pd, x, x1, x2, x3, conv⟩ := neumann_converge near corner P M hP hM hc ho geo hreg hsm hw hemb hcusp t ht p T hconst hind e he g hg α hα
  obtain ⟨Cv, Cv0, hCv⟩ := load_rate near corner P M hP hM hc ho geo hreg hsm hw hemb hcusp t ht es hes p T hT (fun _ => 1) fun _ _ _ _ => contDiffAt_const
  obtain ⟨Cw, Cw0, hCw⟩ := neumann_rate near corner P M hP hM hc ho geo hreg hsm hw hemb hcusp t ht p T es hes hT g hg
  obtain ⟨Cq, Cq0, hCq⟩ := pair_rate_of near corner P M hP hM hc ho geo hreg hsm hw hemb hcusp t ht Operator.laplaceHyp rfl es (C89_operators es hes 0).2.2.2.1
    junkB B0 B hB p hdeg
  obtain ⟨Kt, Kt0, hKt⟩ := transform_error_of near corner P M hP geo t ht Operator.laplaceHyp (fun f g => hypersingularForm ⟨t, p, geo, T⟩ (leaves P M) f g) p T hT
    fun jr jk f g => form_entries near corner P M hP hM hc ho geo hreg hsm hw hemb hcusp t ht p jr jk T f g
  obtain ⟨Cf, hCf⟩ := C88_surface es Operator.laplaceHyp Nat.one_pos Nat.two_pos gradT _ C42_operators.2.1 (C88_operators es hes 0).2.2.2.1 near corner P M hP hc
    geo hreg (smooth_patches P geo hsm) hw hemb t ht junkB B0 B hB eta heta minLevel hm p T hT (fun _ => 0) (fun _ => 0)
  let Cm : Nat → ℝ := fun κ => Kt * max (Cq κ) (Cf κ)
  have q0 : ∀ κ, 0 ≤ max (Cq κ) (Cf κ) := fun κ => (Cq0 κ).trans (le_max_left _ _)
  have Cm0 : ∀ κ, 0 ≤ Cm κ := fun κ => mul_nonneg Kt0 (q0 κ)
  obtain ⟨N, C, hN⟩ := conv Cm Cv Cw Cm0 Cv0 Cw0
  refine ⟨leaves P M, elements_eq t P M hP k3 k6, pd, x, x1, x2, x3, N, fun κ => max (C κ) (Cm κ),
    fun i hi GS hGS ffq hff ME q hiq hx ord hord hG jr jk junk1 order j hij hjo => ?_⟩
  obtain ⟨v, v1, v2⟩ := hCv junk1 i order j hij hjo
  obtain ⟨w, w1, w2⟩ := hCw junk1 i order j hij hjo
  obtain ⟨pr, hpr⟩ := hCq i GS hGS ffq hff jr jk
  obtain ⟨A, a1, a2⟩ := hCf _ pr (fun a b ha hb => (hpr a b ha hb).1) ME q (by omega) hx ord hord hG
  have mat : ∀ κ, ∀ c < T.cols, ∀ d < T.cols, |(∑ r ∈ range T.rows, ∑ k ∈ range T.rows, T.at' r c * A r k * T.at' k d) -
      hypersingularMatrix ⟨t, p, geo, T⟩ (leaves P M) c d| ≤ Cm κ / ((i : ℝ) + 1) ^ κ := fun κ => by
    have i0 : (0 : ℝ) < ((i : ℝ) + 1) ^ κ := by positivity
    have hi' : ((i : ℝ) + 1) ^ κ ≤ (q : ℝ) ^ κ := pow_le_pow_left₀ (by positivity) (by exact_mod_cast hiq) κ
    have bnd : ∀ a b, IsNode P M a → IsNode P M b → ∀ k < (p + 1) * (p + 1), ∀ l < (p + 1) * (p + 1),
        |A ((p + 1) * (p + 1) * t.id a + k) ((p + 1) * (p + 1) * t.id b + l) -
          exactEntry t Operator.laplaceHyp (map2surface t geo) p M jr jk a b k l| ≤ max (Cq κ) (Cf κ) / ((i : ℝ) + 1) ^ κ := fun a b ha hb k hk l hl => by
      have := a1 a b ha hb 0 Nat.one_pos 0 Nat.one_pos k hk l hl
      simp only [Nat.zero_mul, Nat.zero_add] at this
      rcases this with h | h
      · rw [h]
        exact ((hpr a b ha hb).2 κ k hk l hl).trans (div_le_div_of_nonneg_right (le_max_left _ _) i0.le)
      · rw [exact_junk near corner P M hP hM hc ho geo hreg hsm hw hemb hcusp t ht p jr jk (fun _ => 0) (fun _ => 0) a b ha hb k l hk hl]
        exact (h κ).trans ((div_le_div_of_nonneg_right (le_max_right _ _) (by positivity)).trans (div_le_div_of_nonneg_left (q0 κ) i0 hi'))
    intro c hcn d hdn
    refine (hKt jr jk A _ bnd c hcn d hdn).trans ?_
    rw [← mul_div_assoc]
  have i1 : ∀ κ, (0 : ℝ) < ((i : ℝ) + 1) ^ κ := fun κ => by positivity
  obtain ⟨y0, y, y1, y2, y3⟩ := hN i hi _ (fun c => v.at' c 0) (fun c => w.at' c 0) mat v2 w2
  refine ⟨v, w, fun c d => ∑ r ∈ range T.rows, ∑ k ∈ range T.rows, T.at' r c * A r k * T.at' k d, v1, w1, fun junk junkE junkT M0 ws hws => ?_,
    fun κ c hcn d hdn => (mat κ c hcn d hdn).trans (div_le_div_of_nonneg_right (le_max_right _ _) (i1 κ).le),
    y0, y, y1, y2, fun κ c hcn => (y3 κ c hcn).trans (div_le_div_of_nonneg_right (le_max_left _ _) (i1 κ).le)⟩
  obtain ⟨H, H1, H2⟩ := a2 junk junkE junkT M0 ws hws
  refine ⟨H, H1, fun junk Sch rhs res alpha r1 r2 r3 => ?_⟩
  obtain ⟨res', q1, q2, q3, q4⟩ := H2 junk Sch rhs res alpha r1 r2 r3
  refine ⟨res', q1, q2, q3, fun k hk c hc => ?_⟩
  rw [q4 k (by rw [r2]; exact hk) c hc]
  congr 2
  simp only [sum_mul]
  rw [sum_congr rfl fun r _ => sum_comm, sum_comm]

end
end Hypersingular
open Hypersingular

/-- C92: the Neumann problem with continuous ansatz functions on a connected surface, with the compressed matrix. -/
theorem C92_compressed (near : V3 → V3 → Bool) (corner : Nat → Nat → V3) (P M : Nat) (hP : 0 < P) (hM : 1 ≤ M) (hc : ConformingPatches near corner P)
    (ho : OrientedPatches corner P) (geo : Nat → ℝ × ℝ → V3 × V3 × V3) (hreg : RegularPatches P geo) (hsm : SmoothSurface P geo)
    (hw : Watertight corner P fun p s => (geo p s).1) (hemb : Embedded corner P geo) (hcusp : NoCusps P geo)
    (t : Mesh.Tree ℝ) (ht : initElementTree near corner P M = some t)
    (hconn : PatchesConnected corner P) (junkT : Nat → ℝ) (junkM : Nat → Nat → ℝ) (solve) (hs : SolvesSystems solve) (p rep : Nat) (hp0 : 0 < p) (hp : p ≤ 4)
    (hrep : 1 ≤ rep) (hrp : rep ≤ p) (T : EMat ℝ) (hT : Ansatz.transformationCont junkT junkM solve t p M P rep = some T)
    (hl : (p + 2) * M < 100) (es : EigenSolver) (hes : SolverCorrect es) (junkB : Nat → V3) (B0 B : Addr → Ball V3)
    (hB : computeElementEnclosings t (fun p s => (geo p s).1) junkB B0 = some B)
    (g : V3 → Fin 3 → ℝ) (hg : SmoothData P geo g) (α : ℝ) (hα : 0 < α) :
    ∀ eta ≥ 0, ∀ minLevel ≥ 0, SolvesNeumannCompressed es B P M eta minLevel ⟨t, p, geo, T⟩ g α := by
  intro eta he minLevel hm
  obtain ⟨u, g1, g2, g3, -⟩ := tree_facts (K := ℝ) near corner P M hP
  obtain rfl : u = t := Option.some.inj (g1.symm.trans ht)
  have hT' : T.rows = 1 * ((p + 1) * (p + 1) * u.nElements) := by rw [WellPosed.cont_rows near corner junkT junkM solve hs p M P rep hP hp0 (by omega) hrep hrp hc ho u ht T hT, g3]; ring
  obtain ⟨e, -, -, e3⟩ := constant_mem P M geo u near corner hP hc ho ht junkT junkM solve hs p rep hp0 hp hrep hrp T hT
  refine neumann_compressed near corner P M hP hM hc ho geo hreg hsm hw hemb hcusp u ht p T
    (fun f h => constant_of_elementwise P M geo u near corner hP hc ho hconn ht junkT junkM solve hs p rep hp0 (by omega) hrep hrp T hT f h)
    (fun f hf => ?_) e e3 es hes junkB B0 B hB eta he minLevel hm (fun a b _ _ => (C57_no_assert 1 p _ M (by omega) (by omega) hl).2) hT' g hg α hα
  refine C83_continuous near corner junkT junkM solve hs p M P rep hP hp0 hp hrep hrp hc ho u ht T hT f fun a ha s s1 s2 s3 s4 => ?_
  have := hf a ha s s1 s2 s3 s4
  simp only at this
  obtain ⟨-, l, -⟩ := g2 M le_rfl a (mem_leaves.2 ha)
  rw [WellPosed.ofReal_self, ← g3, ← show getH u a = 1 / 2 ^ M by unfold getH; rw [l, ha.2.1]]
  exact this

end Bembel.Props
