import Verif.Lemmas.GeometryIO
import Verif.Props.Patch
/-!
# Property theorems C15–C17: geometry files
-/

set_option linter.unusedSectionVars false

namespace Bembel.Props

open Bembel.Basis Bembel.Spl Bembel.Geo

variable {K : Type} [Field K] [LinearOrder K] [IsStrictOrderedRing K]

/-! ## C15 -/

/-- A patch without interior knots with a data vector of the size implied by its orders. -/
structure BezierPatch (p : Patch K) : Prop where
  hux : p.ux = [0, 1]
  huy : p.uy = [0, 1]
  px1 : 1 ≤ p.px
  py1 : 1 ≤ p.py
  hlen : p.data.length = 4 * (p.px * p.py)

theorem loadMatrixStep_eq (M N : Nat) (vals : List K) (hv : vals.length = M * N) (rest : Text K)
    (iss : Stream K) (hg : iss.good = true) (w : Option (Tok K)) (acc : List (Mat K)) (n : Nat) :
    ∃ iss' w', iss'.good = true ∧
      loadMatrixStep M N ((tl (vals.map Tok.real) ++ .eol :: rest, iss, w), acc) n =
        some ((rest, iss', w'), acc ++ [⟨M, N, fun i j => vals.getD (i * N + j) 0⟩]) := by
  obtain ⟨s', w', h1, h2⟩ := readReals_eq (vals.map Tok.real) (iss.str (tl (vals.map Tok.real))) w
    (rem_str iss _ hg)
  rw [List.length_map, hv] at h1
  refine ⟨s'.clear, w', rfl, ?_⟩
  unfold loadMatrixStep
  simp only [getline_tl, Option.bind_eq_bind, Option.bind_some, h1]
  congr 3
  simp [atof, Function.comp_def]

theorem getD_rowMajor (A : Mat K) (M N i j : Nat) (hi : i < M) (hj : j < N) :
    (rowMajor A M N).getD (i * N + j) 0 = A.entry i j := by
  unfold rowMajor
  rw [List.getD_eq_getElem?_getD, flatMap_getElem? M N _ (by simp) i j hi hj]
  simp [List.getElem?_range hj]

/-- Building a patch from matrices that hold its control data gives the patch back. -/
theorem initPatch_of_entries (junk : Nat → K) (p : Patch K) (hp : BezierPatch p) (tmp : Nat → Mat K)
    (hr : ∀ k < 4, (tmp k).rows = p.py) (hc : ∀ k < 4, (tmp k).cols = p.px)
    (he : ∀ k < 4, ∀ i j, i < p.px → j < p.py → (tmp k).entry j i = p.data.getD (4 * (i * p.py + j) + k) 0) :
    initPatch junk tmp (datKnots p.px) (datKnots p.py) = some p := by
  have hpx := hp.px1
  have hpy := hp.py1
  have kl : ∀ q, (datKnots q : List K).length = 2 * q := fun q => by rw [datKnots_eq]; simp; omega
  have hbz : ∀ q, 1 ≤ q → SingleSpan (datKnots q : List K) := fun q hq => by
    rw [datKnots_eq, ← makeBezier_eq]; exact (bezier_singleSpan q hq).1
  obtain ⟨p', hp', q1, q2, q3, q4, q5, q6⟩ := C10_patch_layout junk tmp
    (datKnots p.px) (datKnots p.py) p.py p.px hr hc (hbz _ hpx) (hbz _ hpy) (kl _) (kl _)
  have hpp : p' = p := by
    have hdata : p'.data = p.data := by
      apply List.ext_getElem?
      intro n
      rcases Nat.lt_or_ge n (4 * (p.px * p.py)) with hn | hn
      · have hj : n / 4 % p.py < p.py := Nat.mod_lt _ hpy
        have hi : n / 4 / p.py < p.px := by
          rw [Nat.div_lt_iff_lt_mul hpy]; omega
        have hk : n % 4 < 4 := Nat.mod_lt _ (by omega)
        have hdm : n / 4 / p.py * p.py + n / 4 % p.py = n / 4 := by
          rw [Nat.mul_comm]; exact Nat.div_add_mod _ _
        have hn4 : 4 * (n / 4 / p.py * p.py + n / 4 % p.py) + n % 4 = n := by rw [hdm]; omega
        have := q6 _ _ _ hi hj hk
        rw [hn4] at this
        rw [this, List.getElem?_eq_getElem (by rw [hp.hlen]; exact hn)]
        have hget : p.data.getD n 0 = p.data[n]'(by rw [hp.hlen]; exact hn) := by
          rw [List.getD_eq_getElem?_getD, List.getElem?_eq_getElem (by rw [hp.hlen]; exact hn)]; rfl
        have h2 := he _ hk _ _ hi hj
        rw [hn4] at h2
        rw [← hget, h2]
      · rw [List.getElem?_eq_none (by rw [q5, Nat.mul_comm p.py]; exact hn),
          List.getElem?_eq_none (by rw [hp.hlen]; exact hn)]
    cases p; cases p'
    simp only at q1 q2 q3 q4 hdata
    have := hp.hux
    have := hp.huy
    simp_all
  rw [hp', hpp]

/-- Writing one patch and reading it back. -/
theorem writeOne_load (junk : Nat → K) (count : Nat) (p : Patch K) (hp : BezierPatch p) :
    ∃ txt, writeOne count p = some txt ∧ ∀ (rest : Text K) (iss : Stream K), iss.good = true →
      (∃ iss' w', iss'.good = true ∧ loadPatchDAT junk (txt ++ rest) iss = some (rest, iss', w', p)) ∧
      loadPatchDAT junk (txt ++ rest) ⟨[], false⟩ = none := by
  obtain ⟨A0, a0, r0, c0, e0⟩ := datMatrix_eq p 0 (by omega) hp.py1 hp.hlen
  obtain ⟨A1, a1, r1, c1, e1⟩ := datMatrix_eq p 1 (by omega) hp.py1 hp.hlen
  obtain ⟨A2, a2, r2, c2, e2⟩ := datMatrix_eq p 2 (by omega) hp.py1 hp.hlen
  obtain ⟨A3, a3, r3, c3, e3⟩ := datMatrix_eq p 3 (by omega) hp.py1 hp.hlen
  have kl : ∀ q, (datKnots q : List K).length = 2 * q := fun q => by rw [datKnots_eq]; simp; omega
  have kne : ∀ q, 1 ≤ q → (datKnots q : List K) ≠ [] := fun q hq h => by
    have := kl q; rw [h] at this; simp at this; omega
  have hpx := hp.px1
  have hpy := hp.py1
  let hd0 : List (Tok K) := [.word "PATCH", .int (count : Int)]
  let hd1 : List (Tok K) := [((p.px : Int) - 1), ((p.py : Int) - 1)].map Tok.int
  let hd2 : List (Tok K) := [(p.px : Int), (p.py : Int)].map Tok.int
  refine ⟨tl hd0 ++ .eol :: (tl hd1 ++ .eol :: (tl hd2 ++ .eol ::
    (tl ((datKnots p.px : List K).map Tok.real) ++ .eol :: (tl ((datKnots p.py : List K).map Tok.real) ++ .eol ::
    (tl ((rowMajor A0 p.py p.px).map Tok.real) ++ .eol :: (tl ((rowMajor A1 p.py p.px).map Tok.real) ++ .eol ::
    (tl ((rowMajor A2 p.py p.px).map Tok.real) ++ .eol ::
    (tl ((rowMajor A3 p.py p.px).map Tok.real) ++ .eol :: [])))))))), ?_, ?_⟩
  · unfold writeOne
    rw [if_neg (by simp [hp.hux, hp.huy])]
    simp only [a0, a1, a2, a3, Option.bind_eq_bind, Option.bind_some]
    unfold writePatch
    simp only [List.getElem?_cons_zero, Option.bind_eq_bind, Option.bind_some,
      writeKnots_eq _ (kne _ hpx), writeKnots_eq _ (kne _ hpy), r0, c0, kl, List.flatMap_cons,
      List.flatMap_nil, writeMatrix_eq _ _ _ hpy hpx]
    congr 1
    have i1 : ((2 * p.px : Nat) : Int) - (p.px : Int) - 1 = (p.px : Int) - 1 := by push_cast; ring
    have i2 : ((2 * p.py : Nat) : Int) - (p.py : Int) - 1 = (p.py : Int) - 1 := by push_cast; ring
    rw [i1, i2]
    simp [hd0, hd1, hd2]
  · intro rest iss hgood
    have hfile : (tl hd0 ++ .eol :: (tl hd1 ++ .eol :: (tl hd2 ++ .eol ::
      (tl ((datKnots p.px : List K).map Tok.real) ++ .eol :: (tl ((datKnots p.py : List K).map Tok.real) ++ .eol ::
      (tl ((rowMajor A0 p.py p.px).map Tok.real) ++ .eol :: (tl ((rowMajor A1 p.py p.px).map Tok.real) ++ .eol ::
      (tl ((rowMajor A2 p.py p.px).map Tok.real) ++ .eol ::
      (tl ((rowMajor A3 p.py p.px).map Tok.real) ++ .eol :: [])))))))) ++ rest : Text K) =
      tl hd0 ++ .eol :: (tl hd1 ++ .eol :: (tl hd2 ++ .eol ::
      (tl ((datKnots p.px : List K).map Tok.real) ++ .eol :: (tl ((datKnots p.py : List K).map Tok.real) ++ .eol ::
      (tl ((rowMajor A0 p.py p.px).map Tok.real) ++ .eol :: (tl ((rowMajor A1 p.py p.px).map Tok.real) ++ .eol ::
      (tl ((rowMajor A2 p.py p.px).map Tok.real) ++ .eol ::
      (tl ((rowMajor A3 p.py p.px).map Tok.real) ++ .eol :: rest)))))))) := by
      simp only [List.append_assoc, List.cons_append, List.nil_append]
    have B : ∀ {α β : Type} (a : α) (f : α → Option β) (o : Option α), o = some a → (o >>= f) = f a := by
      intro α β a f o h; rw [h]; rfl
    rw [hfile]
    have hw2' := readIntsWhile_eq (K := K) [(p.px : Int), (p.py : Int)]
      ((⟨tl hd2, true⟩ : Stream K).items.length + 1) (⟨tl hd2, true⟩ : Stream K)
      [] (by simp [hd2]) ⟨rfl, skipWs_tl _⟩
    refine ⟨?_, ?_⟩
    swap
    · unfold loadPatchDAT
      rw [B _ _ _ (getline_tl _ _)]
      dsimp only
      rw [B _ _ _ (getline_tl _ _)]
      dsimp only
      have hskip : ∀ row : Text K, readIntsWhile ((Stream.str ⟨[], false⟩ row).items.length + 1)
          (Stream.str ⟨[], false⟩ row) [] = some (⟨row, false⟩, []) := by
        intro row
        simp [readIntsWhile, Stream.extract, Stream.str]
      rw [B _ _ _ (hskip _)]
      dsimp only
      rw [B _ _ _ (getline_tl _ _)]
      dsimp only
      rw [B _ _ _ hw2']
      dsimp only
      rw [B _ _ _ (getline_tl _ _)]
      rfl
    have hw1 := readIntsWhile_eq (K := K) [((p.px : Int) - 1), ((p.py : Int) - 1)]
      ((iss.str (tl hd1)).items.length + 1) (iss.str (tl hd1)) [] (by simp [Stream.str, hd1])
      (rem_str iss _ hgood)
    have hw2 := readIntsWhile_eq (K := K) [(p.px : Int), (p.py : Int)]
      ((⟨tl hd2, true⟩ : Stream K).items.length + 1) (⟨tl hd2, true⟩ : Stream K)
      ([] ++ [((p.px : Int) - 1), ((p.py : Int) - 1)]) (by simp [hd2]) ⟨rfl, skipWs_tl _⟩
    have l1 : ((p.px : Int) - 1 + (p.px : Int) + 1).toNat = ((datKnots p.px : List K).map Tok.real).length := by
      rw [List.length_map, kl]; omega
    have l2 : ((p.py : Int) - 1 + (p.py : Int) + 1).toNat = ((datKnots p.py : List K).map Tok.real).length := by
      rw [List.length_map, kl]; omega
    obtain ⟨s3, w3, hr3, g3⟩ := readReals_eq ((datKnots p.px : List K).map Tok.real)
      ((Stream.clear (⟨[], false⟩ : Stream K)).str (tl ((datKnots p.px : List K).map Tok.real))) none
      (rem_str _ _ rfl)
    obtain ⟨s4, w4, hr4, g4⟩ := readReals_eq ((datKnots p.py : List K).map Tok.real)
      (s3.clear.str (tl ((datKnots p.py : List K).map Tok.real))) none (rem_str _ _ rfl)
    have hat : ∀ l : List K, (l.map Tok.real).map (fun t => atof (some t)) = l := fun l => by
      simp [atof, Function.comp_def]
    rw [hat] at hr3 hr4
    have len : ∀ A : Mat K, (rowMajor A p.py p.px).length = p.py * p.px := fun A => rowMajor_length _ _ _
    obtain ⟨s5, w5, g5, hm5⟩ := loadMatrixStep_eq p.py p.px (rowMajor A0 p.py p.px) (len _)
      (tl ((rowMajor A1 p.py p.px).map Tok.real) ++ .eol :: (tl ((rowMajor A2 p.py p.px).map Tok.real) ++ .eol ::
        (tl ((rowMajor A3 p.py p.px).map Tok.real) ++ .eol :: rest))) s4.clear rfl w4 [] 0
    obtain ⟨s6, w6, g6, hm6⟩ := loadMatrixStep_eq p.py p.px (rowMajor A1 p.py p.px) (len _)
      (tl ((rowMajor A2 p.py p.px).map Tok.real) ++ .eol ::
        (tl ((rowMajor A3 p.py p.px).map Tok.real) ++ .eol :: rest)) s5 g5 w5
      ([] ++ [⟨p.py, p.px, fun i j => (rowMajor A0 p.py p.px).getD (i * p.px + j) 0⟩]) 1
    obtain ⟨s7, w7, g7, hm7⟩ := loadMatrixStep_eq p.py p.px (rowMajor A2 p.py p.px) (len _)
      (tl ((rowMajor A3 p.py p.px).map Tok.real) ++ .eol :: rest) s6 g6 w6
      ([] ++ [⟨p.py, p.px, fun i j => (rowMajor A0 p.py p.px).getD (i * p.px + j) 0⟩] ++
        [⟨p.py, p.px, fun i j => (rowMajor A1 p.py p.px).getD (i * p.px + j) 0⟩]) 2
    obtain ⟨s8, w8, g8, hm8⟩ := loadMatrixStep_eq p.py p.px (rowMajor A3 p.py p.px) (len _)
      rest s7 g7 w7
      ([] ++ [⟨p.py, p.px, fun i j => (rowMajor A0 p.py p.px).getD (i * p.px + j) 0⟩] ++
        [⟨p.py, p.px, fun i j => (rowMajor A1 p.py p.px).getD (i * p.px + j) 0⟩] ++
        [⟨p.py, p.px, fun i j => (rowMajor A2 p.py p.px).getD (i * p.px + j) 0⟩]) 3
    -- the patch that is constructed
    let tmp : List (Mat K) :=
      ([] ++ [⟨p.py, p.px, fun i j => (rowMajor A0 p.py p.px).getD (i * p.px + j) 0⟩] ++
        [⟨p.py, p.px, fun i j => (rowMajor A1 p.py p.px).getD (i * p.px + j) 0⟩] ++
        [⟨p.py, p.px, fun i j => (rowMajor A2 p.py p.px).getD (i * p.px + j) 0⟩] ++
        [⟨p.py, p.px, fun i j => (rowMajor A3 p.py p.px).getD (i * p.px + j) 0⟩])
    have k4 : ∀ k < 4, k = 0 ∨ k = 1 ∨ k = 2 ∨ k = 3 := by omega
    have hp' := initPatch_of_entries junk p hp (fun k => tmp.getD k ⟨0, 0, fun _ _ => 0⟩)
      (fun k hk => by rcases k4 k hk with rfl | rfl | rfl | rfl <;> rfl)
      (fun k hk => by rcases k4 k hk with rfl | rfl | rfl | rfl <;> rfl)
      (fun k hk i j hi hj => by
        rcases k4 k hk with rfl | rfl | rfl | rfl
        · rw [← e0 _ _ hi hj]; exact getD_rowMajor A0 _ _ _ _ hj hi
        · rw [← e1 _ _ hi hj]; exact getD_rowMajor A1 _ _ _ _ hj hi
        · rw [← e2 _ _ hi hj]; exact getD_rowMajor A2 _ _ _ _ hj hi
        · rw [← e3 _ _ hi hj]; exact getD_rowMajor A3 _ _ _ _ hj hi)
    refine ⟨s8, w8, g8, ?_⟩
    unfold loadPatchDAT
    have x1 := List.length_map (f := Tok.real) (as := (datKnots p.px : List K))
    have x2 := List.length_map (f := Tok.real) (as := (datKnots p.py : List K))
    rw [x1] at l1 hr3
    rw [x2] at l2 hr4
    rw [B _ _ _ (getline_tl _ _)]
    dsimp only
    rw [B _ _ _ (getline_tl _ _)]
    dsimp only
    rw [B _ _ _ hw1]
    dsimp only
    rw [B _ _ _ (getline_tl _ _)]
    dsimp only
    rw [B _ _ _ hw2]
    dsimp only
    rw [B _ _ _ (getline_tl _ _)]
    dsimp only
    generalize hinfo : ([] ++ [((p.px : Int) - 1), ((p.py : Int) - 1)] ++ [(p.px : Int), (p.py : Int)]) = info
    have z0 : info[0]? = some ((p.px : Int) - 1) := by rw [← hinfo]; rfl
    have z1 : info[1]? = some ((p.py : Int) - 1) := by rw [← hinfo]; rfl
    have z2 : info[2]? = some (p.px : Int) := by rw [← hinfo]; rfl
    have z3 : info[3]? = some (p.py : Int) := by rw [← hinfo]; rfl
    rw [B _ _ _ z0, B _ _ _ z1, B _ _ _ z2, B _ _ _ z3]
    rw [l1, B _ _ _ hr3]
    dsimp only
    rw [B _ _ _ (getline_tl _ _)]
    dsimp only
    rw [l2, B _ _ _ hr4]
    dsimp only
    have hloop : forOpt 4 (loadMatrixStep ((p.py : Int).toNat) ((p.px : Int).toNat))
        ((tl ((rowMajor A0 p.py p.px).map Tok.real) ++ .eol :: (tl ((rowMajor A1 p.py p.px).map Tok.real) ++ .eol ::
          (tl ((rowMajor A2 p.py p.px).map Tok.real) ++ .eol ::
          (tl ((rowMajor A3 p.py p.px).map Tok.real) ++ .eol :: rest))), s4.clear, w4), []) =
        some ((rest, s8, w8), tmp) := by
      rw [forOpt_succ, forOpt_succ, forOpt_succ, forOpt_succ, forOpt_zero]
      simp only [Option.bind_some, Int.toNat_natCast, hm5, hm6, hm7, hm8]
      rfl
    rw [B _ _ _ hloop]
    dsimp only
    rw [B _ _ _ hp']

/-- A loop whose body ignores the index can be split at the front. -/
theorem foldlM_range_const {σ : Type} (f : σ → Option σ) (n : Nat) (s : σ) :
    (List.range (n + 1)).foldlM (fun st (_ : Nat) => f st) s =
      (f s).bind fun s' => (List.range n).foldlM (fun st (_ : Nat) => f st) s' := by
  rw [List.range_succ_eq_map, List.foldlM_cons]
  simp only [Option.bind_eq_bind]
  congr 1
  funext s'
  generalize List.range n = l
  induction l generalizing s' with
  | nil => rfl
  | cons a l ih =>
    rw [List.map_cons, List.foldlM_cons, List.foldlM_cons]
    simp only [Option.bind_eq_bind]
    congr 1
    funext s''
    exact ih s''

/-- C15: writing any list of patches without interior knots to a DAT file and loading that file yields
exactly the same patches (orders, knots, control data, order of the patches); the loader consumes exactly the
written text. -/
theorem C15_roundtrip (junk : Nat → K) (name : String) (ps : List (Patch K))
    (hps : ∀ p ∈ ps, BezierPatch p) :
    ∃ file, writeDATFile name ps = some file ∧ loadGeometryFileDAT junk file = some (ps, []) := by
  -- the blocks
  have blocks : ∀ (qs : List (Patch K)) (c : Nat) (pre : Text K), (∀ p ∈ qs, BezierPatch p) →
      ∃ body, qs.foldlM (fun (st : Text K × Nat) p => do
          let t ← writeOne st.2 p
          some (st.1 ++ t, st.2 + 1)) (pre, c) = some (pre ++ body, c + qs.length) ∧
        ∀ (rest : Text K) (iss : Stream K) (acc : List (Patch K)), iss.good = true →
          ∃ iss', iss'.good = true ∧
          (List.range qs.length).foldlM (fun (st : Text K × Stream K × List (Patch K)) (_ : Nat) => do
            let (file, iss, _, patch) ← loadPatchDAT junk st.1 st.2.1
            some (file, iss, st.2.2 ++ [patch])) (body ++ rest, iss, acc) =
            some (rest, iss', acc ++ qs) := by
    intro qs
    induction qs with
    | nil =>
      intro c pre _
      exact ⟨[], by simp, fun rest iss acc h => ⟨iss, h, by simp⟩⟩
    | cons q qs ih =>
      intro c pre h
      obtain ⟨txt, ht, hl⟩ := writeOne_load junk c q (h q (by simp))
      obtain ⟨body, hb, hbl⟩ := ih (c + 1) (pre ++ txt) (fun p hp => h p (by simp [hp]))
      refine ⟨txt ++ body, ?_, ?_⟩
      · rw [List.foldlM_cons, ht]
        simp only [Option.bind_eq_bind, Option.bind_some] at hb ⊢
        rw [hb]
        simp; omega
      · intro rest iss acc hg
        obtain ⟨⟨iss1, w1, g1, h1⟩, _⟩ := hl (body ++ rest) iss hg
        obtain ⟨iss2, g2, h2⟩ := hbl rest iss1 (acc ++ [q]) g1
        refine ⟨iss2, g2, ?_⟩
        rw [List.length_cons, foldlM_range_const (fun (st : Text K × Stream K × List (Patch K)) => do
            let (file, iss, _, patch) ← loadPatchDAT junk st.1 st.2.1
            some (file, iss, st.2.2 ++ [patch]))]
        simp only [List.append_assoc, h1, Option.bind_eq_bind, Option.bind_some] at h2 ⊢
        rw [h2]
        simp
  obtain ⟨body, hb, hl⟩ := blocks ps 0 (makeFile name ps.length) hps
  refine ⟨makeFile name ps.length ++ body, ?_, ?_⟩
  · unfold writeDATFile
    rw [hb]; rfl
  · obtain ⟨iss', g', h'⟩ := hl [] ⟨[.ws], true⟩ [] rfl
    simp only [List.append_nil, List.nil_append] at h'
    unfold loadGeometryFileDAT makeFile forOpt
    simp only [List.cons_append, List.nil_append, getline, Option.bind_eq_bind, Option.bind_some,
      List.range_succ, List.range_zero, List.foldlM_cons, List.foldlM_nil, readWord, Stream.extract, skipWs,
      stoi, Option.orElse, List.getElem?_cons_succ, List.getElem?_cons_zero,
      if_neg (by decide : ¬ (true = false)), Option.pure_def, Int.toNat_natCast]
    simp only [Option.bind_eq_bind] at h'
    rw [h']
    rfl

/-- Non-vacuity: a bilinear patch. -/
example : BezierPatch (⟨[0, 0, 0, 1, 0, 1, 0, 1, 1, 0, 0, 1, 1, 1, 0, 1], 2, 2, [0, 1], [0, 1]⟩ : Patch ℚ) :=
  ⟨rfl, rfl, by simp, by simp, rfl⟩

/-- The header written by the library, without the white space after the fifth number of its last line. -/
def bareHeader (name : String) (n : Nat) : Text K :=
  [.tok (.word "# nurbs mesh v.2.1"), .ws, .eol,
   .tok (.word "#"), .ws, .tok (.word name), .ws, .eol,
   .tok (.word "# Generated by BEMBEL, see www.bembel.eu"), .ws, .eol,
   .tok (.word "#"), .ws, .eol,
   .tok (.int 2), .ws, .tok (.int 3), .ws, .tok (.int n), .ws, .tok (.int 0), .ws,
     .tok (.int 0), .eol]

/-- C15, limitation found: if the last header line of an otherwise well-formed file ends directly after its
fifth number (no trailing blank and plain `\n` line ends), the stream keeps `eofbit`, the degree line of the
first patch is skipped and the loader reads outside `info` (undefined behaviour), whatever patch
the file contains. -/
theorem C15_header_violated (junk : Nat → K) (name : String) (p : Patch K) (hp : BezierPatch p) :
    ∃ txt, writeOne 0 p = some txt ∧
      loadGeometryFileDAT junk (makeFile name 1 ++ txt) = some ([p], []) ∧
      loadGeometryFileDAT junk (bareHeader name 1 ++ txt) = none := by
  obtain ⟨txt, ht, hl⟩ := writeOne_load junk 0 p hp
  obtain ⟨file, hf, hload⟩ := C15_roundtrip junk name [p] (by simpa using hp)
  refine ⟨txt, ht, ?_, ?_⟩
  · have : file = makeFile name 1 ++ txt := by
      simp only [writeDATFile, List.foldlM_cons, ht, List.foldlM_nil, List.length_singleton,
        Option.bind_eq_bind, Option.bind_some, Option.pure_def, Option.some.injEq] at hf
      exact hf.symm
    rw [← this]; exact hload
  · have h := (hl [] ⟨[], true⟩ rfl).2
    rw [List.append_nil] at h
    unfold loadGeometryFileDAT bareHeader forOpt
    simp only [List.cons_append, List.nil_append, getline, Option.bind_eq_bind, Option.bind_some,
      List.range_succ, List.range_zero, List.foldlM_cons, List.foldlM_nil, readWord, Stream.extract, skipWs,
      stoi, Option.orElse, List.getElem?_cons_succ, List.getElem?_cons_zero,
      if_neg (by decide : ¬ (true = false)), Option.pure_def, Int.toNat_natCast, h, Option.bind_none]

end Bembel.Props
