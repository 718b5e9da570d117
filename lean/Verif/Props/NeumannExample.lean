import Verif.Props.NeumannCompressed
import Verif.Props.Refinement
/-! # C92: a surface that meets the hypotheses -/

namespace Bembel.Props
open Finset Mesh H2 Spec Util Duffy SuperSpace FunctionEval Glue Ansatz Projector Basis

namespace Hypersingular

/-- The mesh only depends on which corners coincide. -/
theorem rename {V W : Type} (near : V → V → Bool) (near' : W → W → Bool) (φ : W → V) (idx : Nat → Nat → W) (S : W → Prop) (P M : Nat)
    (hS : ∀ p < P, ∀ j < 4, S (idx p j)) (h : ∀ u v, S u → S v → near (φ u) (φ v) = near' u v) :
    (initElementTree near (fun p j => φ (idx p j)) P M : Option (Mesh.Tree ℝ)) = initElementTree near' idx P M := by
  have key : initCorners near (fun p j => φ (idx p j)) P = ⟨(initCorners near' idx P).uniquePts.map φ, (initCorners near' idx P).vert, (initCorners near' idx P).nPoints⟩ := by
    have step : ∀ (i j : Nat), S (idx i j) → ∀ (st : CornerState W), (∀ u ∈ st.uniquePts, S u) →
        cornerStep near (fun p j => φ (idx p j)) i ⟨st.uniquePts.map φ, st.vert, st.nPoints⟩ j =
          ⟨(cornerStep near' idx i st j).uniquePts.map φ, (cornerStep near' idx i st j).vert, (cornerStep near' idx i st j).nPoints⟩ ∧
        ∀ u ∈ (cornerStep near' idx i st j).uniquePts, S u := by
      intro i j hij st hst
      have e : (st.uniquePts.map φ).findIdx (fun u => near u (φ (idx i j))) = st.uniquePts.findIdx fun u => near' u (idx i j) := by
        obtain ⟨l, v, n⟩ := st
        simp only at hst ⊢
        induction l with
        | nil => rfl
        | cons a l ih =>
          rw [List.map_cons, List.findIdx_cons, List.findIdx_cons, h a _ (hst a (List.mem_cons_self)) hij, ih fun u hu => hst u (List.mem_cons_of_mem _ hu)]
      unfold cornerStep
      simp only [e, List.length_map]
      split
      · exact ⟨rfl, hst⟩
      · refine ⟨by simp, fun u hu => ?_⟩
        rcases List.mem_append.1 hu with hu | hu
        · exact hst u hu
        · rw [List.mem_singleton.1 hu]; exact hij
    have loop : ∀ (i : Nat), i < P → ∀ n ≤ 4, ∀ (st : CornerState W), (∀ u ∈ st.uniquePts, S u) →
        forLoop n (cornerStep near (fun p j => φ (idx p j)) i) ⟨st.uniquePts.map φ, st.vert, st.nPoints⟩ =
          ⟨(forLoop n (cornerStep near' idx i) st).uniquePts.map φ, (forLoop n (cornerStep near' idx i) st).vert, (forLoop n (cornerStep near' idx i) st).nPoints⟩ ∧
        ∀ u ∈ (forLoop n (cornerStep near' idx i) st).uniquePts, S u := by
      intro i hi n hn st hst
      induction n with
      | zero => simp only [forLoop_zero]; exact ⟨trivial, hst⟩
      | succ n ih =>
        obtain ⟨i1, i2⟩ := ih (by omega)
        simp only [forLoop_succ]
        rw [i1]
        exact step i n (hS i hi n (by omega)) _ i2
    unfold initCorners
    have : ∀ n ≤ P, forLoop n (fun st i => forLoop 4 (cornerStep near (fun p j => φ (idx p j)) i) st) ⟨[], fun _ _ => 0, 0⟩ =
        ⟨(forLoop n (fun st i => forLoop 4 (cornerStep near' idx i) st) ⟨[], fun _ _ => 0, 0⟩).uniquePts.map φ,
          (forLoop n (fun st i => forLoop 4 (cornerStep near' idx i) st) ⟨[], fun _ _ => 0, 0⟩).vert,
          (forLoop n (fun st i => forLoop 4 (cornerStep near' idx i) st) ⟨[], fun _ _ => 0, 0⟩).nPoints⟩ ∧
        ∀ u ∈ (forLoop n (fun st i => forLoop 4 (cornerStep near' idx i) st) ⟨[], fun _ _ => 0, 0⟩).uniquePts, S u := by
      intro n hn
      induction n with
      | zero => simp only [forLoop_zero]; exact ⟨rfl, by simp⟩
      | succ n ih =>
        obtain ⟨i1, i2⟩ := ih (by omega)
        rw [forLoop_succ n, forLoop_succ n, i1]
        exact loop n (by omega) 4 le_rfl _ i2
    exact (this P le_rfl).1
  unfold initElementTree initPatches
  simp only [key]

/-- Continuous bilinear splines on a surface of two patches with six corners: the matrix of level one exists. -/
theorem sheet_cont (junk : Nat → ℝ) (junkM : Nat → Nat → ℝ) (t : Mesh.Tree ℝ)
    (ht : initElementTree (fun u v : V3 => decide (u = v)) (fun p j => Smooth.sheetVertex (Smooth.sheetIndex p j)) 2 1 = some t) :
    ∃ T, transformationCont junk junkM solver t 1 1 2 1 = some T := by
  obtain ⟨st, h1, h2⟩ := C64_continuous_exists _ _ junk junkM solver solver_solves 1 1 2 1 (by norm_num) (by norm_num) (by norm_num) (by norm_num) (by norm_num)
    Smooth.sheet_conforming Singular.sheet_oriented t ht
  rw [h2]
  have e := rename (fun u v : V3 => decide (u = v)) (fun a b : Nat => a == b) Smooth.sheetVertex Smooth.sheetIndex (· < 6) 2 1
    (fun p _ j hj => Smooth.sheetIndex_lt p j hj) fun u v hu hv => by
      by_cases h : u = v
      · simp [h]
      · have : Smooth.sheetVertex u ≠ Smooth.sheetVertex v := fun h' => h (Smooth.vertex_inj u v hu hv h')
        simp [h, this]
  have hx : ((initElementTree (fun a b : Nat => a == b) Smooth.sheetIndex 2 1 : Option (Mesh.Tree ℝ)).bind fun t =>
      (identifyCont (oneDDim 1 1 1) (2 * (oneDDim 1 1 1 * oneDDim 1 1 1)) (patchTopologyInfo t)).map fun st =>
        (st.out.zip (st.out.tail ++ [⟨[], 1⟩])).all fun x => decide (x.1.dofs ≠ []) || decide (x.2.dofs ≠ [])) = some true := by decide +kernel
  rw [← e, ht, Option.bind_some, h1, Option.map_some, Option.some_inj] at hx
  intro k d hk hd
  have hk' : k < st.out.length := (List.getElem?_eq_some_iff.1 hk).1
  have hz : (st.out.zip (st.out.tail ++ [⟨[], 1⟩]))[k]? = some (d, (st.out[k + 1]?).getD ⟨[], 1⟩) := by
    rw [List.getElem?_zip_eq_some]
    refine ⟨hk, ?_⟩
    simp only
    rw [List.getElem?_append]
    split
    · rename_i h
      rw [List.getElem?_tail]
      rw [List.length_tail] at h
      rw [List.getElem?_eq_getElem (by omega)]
      rfl
    · rename_i h
      rw [List.length_tail] at h ⊢
      rw [List.getElem?_eq_none (l := st.out) (by omega), show k - (st.out.length - 1) = 0 by omega]
      rfl
  have hall := List.all_eq_true.1 hx _ (List.mem_of_getElem? hz)
  simp only [hd, ne_eq, not_true_eq_false, decide_false, Bool.false_or, decide_eq_true_eq] at hall
  cases hs : st.out[k + 1]? with
  | none => rw [hs] at hall; exact absurd rfl hall
  | some e => rw [hs] at hall; exact ⟨e, rfl, hall⟩

theorem sheet_connected : PatchesConnected (fun p j => Smooth.sheetVertex (Smooth.sheetIndex p j)) 2 := by
  have e : ∀ p < 2, ∀ q < 2, ∃ i < 4, ∃ k < 4, patchEdge (fun p j => Smooth.sheetVertex (Smooth.sheetIndex p j)) p i =
      patchEdge (fun p j => Smooth.sheetVertex (Smooth.sheetIndex p j)) q k := by
    intro p hp q hq
    interval_cases p <;> interval_cases q
    · exact ⟨0, by norm_num, 0, by norm_num, rfl⟩
    · exact ⟨1, by norm_num, 3, by norm_num, by simp [patchEdge, Smooth.sheetIndex, Sym2.eq_swap]⟩
    · exact ⟨3, by norm_num, 1, by norm_num, by simp [patchEdge, Smooth.sheetIndex, Sym2.eq_swap]⟩
    · exact ⟨0, by norm_num, 0, by norm_num, rfl⟩
  exact fun p hp q hq => Relation.ReflTransGen.single ⟨hp, hq, e p hp q hq⟩

end Hypersingular
open Hypersingular

open Smooth Bembel.Props.Singular in
/-- Hypotheses that are met: a flat and a curved patch, the mesh of level one, continuous bilinear ansatz functions and the data `(y₁, 0, 0) · n`. -/
example : ∃ (es : EigenSolver) (t : Mesh.Tree ℝ) (T : EMat ℝ) (B : Addr → Ball V3), SolverCorrect es ∧ t.nElements = 8 ∧
    computeElementEnclosings t (fun p s => (sheet p s).1) (fun _ => 0) (fun _ => ⟨0, 0⟩) = some B ∧
    Ansatz.transformationCont (fun _ => 0) (fun _ _ => 0) solver t 1 1 2 1 = some T ∧ HypersingularAccurate es B 2 1 ⟨t, 1, sheet, T⟩ ∧
    SolvesNeumann es B 2 1 ⟨t, 1, sheet, T⟩ (fun y k => if k = 0 then y 1 else 0) 1 ∧
    SolvesNeumannCompressed es B 2 1 1.6 0 ⟨t, 1, sheet, T⟩ (fun y k => if k = 0 then y 1 else 0) 1 ∧
    ∃ els, elements t = some els ∧ ∃ e : EMat ℝ, e.rows = T.cols ∧ e.cols = 1 ∧ EqualsConstant 2 1 ⟨t, 1, sheet, T⟩ e 1 ∧
      ∀ f : EMat ℝ, (hypersingularForm ⟨t, 1, sheet, T⟩ els f f = 0 ↔ ∃ c : ℝ, ∀ k < T.cols, f.at' k 0 = c * e.at' k 0) := by
  obtain ⟨es, hes⟩ := solver_exists
  obtain ⟨t, h1, B, h2, -⟩ := C24_balls _ _ 2 1 (by norm_num) sheet_conforming (fun p s => (sheet p s).1) sheet_water (fun _ => 0) (fun _ => ⟨0, 0⟩)
  obtain ⟨T, hT⟩ := sheet_cont (fun _ => 0) (fun _ _ => 0) t h1
  obtain ⟨u, g1, -, g3, -⟩ := tree_facts (K := ℝ) (fun u v : V3 => decide (u = v)) (fun p j => sheetVertex (sheetIndex p j)) 2 1 (by norm_num)
  obtain rfl : u = t := Option.some.inj (g1.symm.trans h1)
  have hr := WellPosed.cont_rows _ _ (fun _ => 0) (fun _ _ => 0) solver solver_solves 1 1 2 1 (by norm_num) (by norm_num) (by norm_num) le_rfl le_rfl sheet_conforming
    sheet_oriented u h1 T hT
  have data : SmoothData 2 sheet fun y k => if k = (0 : Fin 3) then y 1 else 0 := fun p _ s _ => by
    refine contDiffAt_pi.2 fun k => ?_
    by_cases hk : k = 0
    · simp only [hk, if_true]; exact contDiffAt_euclidean.1 contDiffAt_id 1
    · simp only [hk, if_false]; exact contDiffAt_const
  refine ⟨es, u, T, B, hes, by rw [g3]; norm_num, h2, hT, ?_, ?_, ?_, ?_⟩
  · exact C92_matrix _ _ 2 1 (by norm_num) le_rfl sheet_conforming sheet_oriented sheet sheet_reg sheet_surface sheet_water sheet_embedded sheet_cusp
      u h1 1 T (by rw [hr, g3, Nat.mul_comm]) (by norm_num) (by norm_num) es hes _ _ B h2
  · exact C92_neumann _ _ 2 1 (by norm_num) le_rfl sheet_conforming sheet_oriented sheet sheet_reg sheet_surface sheet_water sheet_embedded sheet_cusp
      u h1 sheet_connected _ _ solver solver_solves 1 1 one_pos (by norm_num) le_rfl le_rfl T hT (by norm_num) es hes _ _ B h2 _ data 1 one_pos
  · exact C92_compressed _ _ 2 1 (by norm_num) le_rfl sheet_conforming sheet_oriented sheet sheet_reg sheet_surface sheet_water sheet_embedded sheet_cusp
      u h1 sheet_connected _ _ solver solver_solves 1 1 one_pos (by norm_num) le_rfl le_rfl T hT (by norm_num) es hes _ _ B h2 _ data 1 one_pos 1.6 (by norm_num) 0
      le_rfl
  · exact C92_kernel _ _ 2 1 (by norm_num) le_rfl sheet_conforming sheet_oriented sheet sheet_reg sheet_surface sheet_water sheet_embedded sheet_cusp
      u h1 sheet_connected _ _ solver solver_solves 1 1 one_pos (by norm_num) le_rfl le_rfl T hT

end Bembel.Props
