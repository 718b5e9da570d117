import Verif.Lemmas.VTKExport
import Verif.Props.MeshSurface
import Verif.Props.MeshGrid
/-!
# Properties C69, C70: VTK files
-/

namespace Bembel.Props
open Bembel.Mesh Bembel.Vtk Bembel.Text

/-! ## Element data -/

/-- A loop that writes row after row. -/
theorem rows_fold {α β : Type} (N : Nat) (row : β → Nat) (f : β → α) (L : List β) (k : Nat) (h : ∀ n a, L[n]? = some a → row a = k + n)
    (hk : k + L.length ≤ N) : ∀ d : Nat → α, ∃ d', L.foldlM (fun d a => if row a < N then some (upd d (row a) (f a)) else none) d = some d' ∧
      (∀ i < k, d' i = d i) ∧ ∀ n a, L[n]? = some a → d' (k + n) = f a := by
  induction L generalizing k with
  | nil => intro d; exact ⟨d, rfl, fun _ _ => rfl, fun n a h => by simp at h⟩
  | cons b L ih =>
    intro d
    have hb : row b = k := h 0 b (by simp)
    simp only [List.length_cons] at hk
    obtain ⟨d', e1, e2, e3⟩ := ih (k + 1) (fun n a hn => by rw [h (n + 1) a (by simpa using hn)]; omega) (by omega) (upd d k (f b))
    refine ⟨d', ?_, fun i hi => ?_, fun n a hn => ?_⟩
    · rw [List.foldlM_cons, hb, if_pos (by omega)]
      exact e1
    · rw [e2 i (by omega)]
      exact if_neg (by omega)
    · cases n with
      | zero =>
        simp only [List.getElem?_cons_zero, Option.some.injEq] at hn
        subst hn
        rw [Nat.add_zero, e2 k (by omega)]
        exact if_pos rfl
      | succ n =>
        have := e3 n a (by simpa using hn)
        rw [← this]
        congr 1; omega

theorem cellData_eq {α : Type} {t : Mesh.Tree ℝ} {L : List Addr} (hL : elements t = some L) (hid : ∀ n a, L[n]? = some a → t.id a = n)
    (hn : L.length = t.nElements) (junk : Nat → α) (f : Nat → ℝ × ℝ → α) :
    ∃ d, cellData t junk f = some d ∧ ∀ n a, L[n]? = some a → d n = f (t.patch a) (referenceMidpoint t a) := by
  obtain ⟨d, e1, -, e3⟩ := rows_fold t.nElements t.id (fun a => f (t.patch a) (referenceMidpoint t a)) L 0 (fun n a h => by rw [hid n a h]; omega) (by omega) junk
  refine ⟨d, ?_, fun n a h => by simpa using e3 n a h⟩
  unfold cellData
  rw [hL]
  exact e1

/-- A table with one row per element. -/
theorem table_eq {α β : Type} (fmt : α → Str) (L : List β) (cols : Nat) (v : Nat → Nat → α) (g : β → Nat → α)
    (h : ∀ n a, L[n]? = some a → ∀ j < cols, v n j = g a j) :
    table fmt ⟨L.length, cols, v⟩ = L.flatMap fun a => (List.range cols).map fun j => fmt (g a j) := by
  unfold table
  have e : (List.range L.length).map (fun i => (List.range cols).map fun j => fmt (v i j)) = L.map fun a => (List.range cols).map fun j => fmt (g a j) := by
    apply List.ext_getElem (by simp)
    intro n h1 h2
    simp only [List.getElem_map, List.getElem_range]
    refine List.map_congr_left fun j hj => ?_
    rw [h n _ (List.getElem?_eq_getElem (by simpa using h1)) j (List.mem_range.1 hj)]
  rw [List.flatMap_def, List.flatMap_def, e]

/-- The value of a function on the element number `i`. -/
noncomputable def cellValue (t : Mesh.Tree ℝ) (L : List Addr) (v : Nat → ℝ × ℝ → Nat → ℝ) (i j : Nat) : ℝ :=
  match L[i]? with
  | some a => v (t.patch a) (referenceMidpoint t a) j
  | none => 0

/-- The strings for functions. -/
noncomputable def dataEls (fm : Formats) (t : Mesh.Tree ℝ) (F : Nat → ℝ × ℝ → V3) (L : List Addr) (x : Str × Fun) : List (List (Str × Str)) :=
  (components F x.1 x.2).map fun c => arrayEls fm fm.sci c.1 ⟨L.length, c.2.1, cellValue t L c.2.2⟩

theorem addReal_eq (fm : Formats) (s : Surface) (L : List Addr) (hc : s.cells.length = L.length) (name : Str) (cols : Nat)
    (h : cols = 1 ∨ cols = 3) (v : Nat → ℝ × ℝ → Nat → ℝ) (d : Nat → Nat → ℝ)
    (hd : ∀ n a, L[n]? = some a → ∀ j < cols, d n j = v (s.t.patch a) (referenceMidpoint s.t a) j) :
    s.addReal fm name cols d = some { s with additionalData := s.additionalData ++
      [render (arrayEls fm fm.sci name ⟨L.length, cols, cellValue s.t L v⟩)] } := by
  unfold Surface.addReal
  rw [dataArray_eq fm fm.sci name _ h, hc]
  simp only [Option.bind_eq_bind, Option.bind_some]
  have : arrayEls fm fm.sci name ⟨L.length, cols, d⟩ = arrayEls fm fm.sci name ⟨L.length, cols, cellValue s.t L v⟩ := by
    have hb : ((List.range L.length).flatMap fun i => ((List.range cols).flatMap fun j => fm.sci (d i j) ++ [' ']) ++ ['\n']) =
        (List.range L.length).flatMap fun i => ((List.range cols).flatMap fun j => fm.sci (cellValue s.t L v i j) ++ [' ']) ++ ['\n'] := by
      refine List.flatMap_congr fun i hi => ?_
      congr 1
      refine List.flatMap_congr fun j hj => ?_
      have hi' : L[i]? = some (L[i]'(List.mem_range.1 hi)) := List.getElem?_eq_getElem (List.mem_range.1 hi)
      rw [hd i _ hi' j (List.mem_range.1 hj)]
      unfold cellValue
      rw [hi']
    unfold arrayEls
    simp only [hb]
  rw [this]

section
variable {fm : Formats} {L : List Addr}

theorem addDataSet_eq (s : Surface) (hL : elements s.t = some L) (hid : ∀ n a, L[n]? = some a → s.t.id a = n)
    (hn : L.length = s.t.nElements) (hc : s.cells.length = L.length) (junk : Nat → ℝ) (junkC : Nat → ℂ) (name : Str) (f : Fun) :
    s.addDataSet fm junk junkC name f = some { s with additionalData := s.additionalData ++ (dataEls fm s.t s.F L (name, f)).map render } := by
  cases f with
  | real f =>
    obtain ⟨d, e, h⟩ := cellData_eq hL hid hn junk f
    simp only [Surface.addDataSet, e, Option.bind_eq_bind, Option.bind_some]
    rw [addReal_eq fm s L hc name 1 (Or.inl rfl) (fun p x _ => f p x) _ fun n a hn _ _ => h n a hn]
    rfl
  | vector f =>
    obtain ⟨d, e, h⟩ := cellData_eq hL hid hn (fun i _ => junk i) f
    simp only [Surface.addDataSet, e, Option.bind_eq_bind, Option.bind_some]
    rw [addReal_eq fm s L hc name 3 (Or.inr rfl) f _ fun n a hn j _ => congrFun (h n a hn) j]
    rfl
  | spaceReal f =>
    obtain ⟨d, e, h⟩ := cellData_eq hL hid hn junk fun p x => f (s.F p x)
    simp only [Surface.addDataSet, e, Option.bind_eq_bind, Option.bind_some]
    rw [addReal_eq fm s L hc name 1 (Or.inl rfl) (fun p x _ => f (s.F p x)) _ fun n a hn _ _ => h n a hn]
    rfl
  | spaceVector f =>
    obtain ⟨d, e, h⟩ := cellData_eq hL hid hn (fun i _ => junk i) fun p x => f (s.F p x)
    simp only [Surface.addDataSet, e, Option.bind_eq_bind, Option.bind_some]
    rw [addReal_eq fm s L hc name 3 (Or.inr rfl) (fun p x => f (s.F p x)) _ fun n a hn j _ => congrFun (h n a hn) j]
    rfl
  | complex f =>
    obtain ⟨d, e, h⟩ := cellData_eq hL hid hn junkC f
    simp only [Surface.addDataSet, e, Option.bind_eq_bind, Option.bind_some]
    rw [addReal_eq fm s L hc _ 1 (Or.inl rfl) (fun p x _ => (f p x).re) _ fun n a hn _ _ => by rw [h n a hn]]
    simp only [Option.bind_some]
    rw [addReal_eq fm _ L (by exact hc) _ 1 (Or.inl rfl) (fun p x _ => (f p x).im) _ fun n a hn _ _ => by rw [h n a hn]]
    simp [dataEls, components]
  | spaceComplex f =>
    obtain ⟨d, e, h⟩ := cellData_eq hL hid hn junkC fun p x => f (s.F p x)
    simp only [Surface.addDataSet, e, Option.bind_eq_bind, Option.bind_some]
    rw [addReal_eq fm s L hc _ 1 (Or.inl rfl) (fun p x _ => (f (s.F p x)).re) _ fun n a hn _ _ => by rw [h n a hn]]
    simp only [Option.bind_some]
    rw [addReal_eq fm _ L (by exact hc) _ 1 (Or.inl rfl) (fun p x _ => (f (s.F p x)).im) _ fun n a hn _ _ => by rw [h n a hn]]
    simp [dataEls, components]
  | complexVector f =>
    obtain ⟨d, e, h⟩ := cellData_eq hL hid hn (fun i _ => junkC i) f
    simp only [Surface.addDataSet, e, Option.bind_eq_bind, Option.bind_some]
    rw [addReal_eq fm s L hc _ 3 (Or.inr rfl) (fun p x j => (f p x j).re) _ fun n a hn _ _ => by rw [h n a hn]]
    simp only [Option.bind_some]
    rw [addReal_eq fm _ L (by exact hc) _ 3 (Or.inr rfl) (fun p x j => (f p x j).im) _ fun n a hn _ _ => by rw [h n a hn]]
    simp [dataEls, components]
  | spaceComplexVector f =>
    obtain ⟨d, e, h⟩ := cellData_eq hL hid hn (fun i _ => junkC i) fun p x => f (s.F p x)
    simp only [Surface.addDataSet, e, Option.bind_eq_bind, Option.bind_some]
    rw [addReal_eq fm s L hc _ 3 (Or.inr rfl) (fun p x j => (f (s.F p x) j).re) _ fun n a hn _ _ => by rw [h n a hn]]
    simp only [Option.bind_some]
    rw [addReal_eq fm _ L (by exact hc) _ 3 (Or.inr rfl) (fun p x j => (f (s.F p x) j).im) _ fun n a hn _ _ => by rw [h n a hn]]
    simp [dataEls, components]

theorem calls_eq (s : Surface) (hL : elements s.t = some L) (hid : ∀ n a, L[n]? = some a → s.t.id a = n)
    (hn : L.length = s.t.nElements) (hc : s.cells.length = L.length) (junk : Nat → ℝ) (junkC : Nat → ℂ) (calls : List Call)
    (h0 : s.additionalData = []) :
    calls.foldlM (Surface.call fm junk junkC) s = some { s with additionalData := ((current calls).flatMap (dataEls fm s.t s.F L)).map render } := by
  have gen : ∀ (calls : List Call) (acc : List (Str × Fun)),
      calls.foldlM (Surface.call fm junk junkC) { s with additionalData := (acc.flatMap (dataEls fm s.t s.F L)).map render } =
      some { s with additionalData := ((calls.foldl (fun l c => match c with
        | .add name f => l ++ [(name, f)]
        | .clear => []) acc).flatMap (dataEls fm s.t s.F L)).map render } := by
    intro calls
    induction calls with
    | nil => intro acc; rfl
    | cons c calls ih =>
      intro acc
      rw [List.foldlM_cons]
      cases c with
      | add name f =>
        simp only [Surface.call]
        rw [addDataSet_eq _ (by exact hL) (by exact hid) (by exact hn) (by exact hc)]
        simp only [Option.bind_eq_bind, Option.bind_some]
        have := ih (acc ++ [(name, f)])
        simp only [List.flatMap_append, List.flatMap_cons, List.flatMap_nil, List.append_nil, List.map_append] at this
        simp only [List.foldl_cons]
        rw [this]
      | clear =>
        simp only [Surface.call, Surface.clearData, Option.bind_eq_bind, Option.bind_some]
        exact ih []
  have := gen calls []
  rw [List.flatMap_nil, List.map_nil, ← h0] at this
  exact this

end

/-- The elements of the file. -/
noncomputable def surfaceEls (fm : Formats) (s : Surface) (D : List (List (Str × Str))) : List (Str × Str) :=
  [("VTKFile type=\"PolyData\" version=\"0.1\" byte_order=\"LittleEndian\"".toList, ['\n']), ("PolyData".toList, ['\n']),
   ("Piece NumberOfPoints=\" ".toList ++ fm.int s.t.nPoints ++ "\" NumberOfVerts=\"0\" NumberOfLines=\"0\" NumberOfStrips=\"0\" NumberOfPolys=\"".toList ++
      fm.int s.cells.length ++ "\"".toList, ['\n']),
   ("Points".toList, ['\n']),
   ("DataArray type=\"Float32\" NumberOfComponents=\"3\" format=\"ascii\"".toList,
      '\n' :: eigenPrint fm.real ⟨s.t.nPoints, 3, fun i j => s.points i (Fin.ofNat 3 j)⟩), ("/DataArray".toList, ['\n']), ("/Points".toList, []),
   ("CellData Scalars=\"patch_number\" Normals=\"cell_normals\"".toList, ['\n']),
   ("DataArray type=\"Int32\" Name=\"patch_number\" format=\"ascii\"".toList,
      '\n' :: eigenPrint (fun n : Nat => fm.int n) ⟨s.cells.length, 1, fun i _ => s.patchNumber i⟩), ("/DataArray".toList, ['\n']),
   ("DataArray type=\"Float32\" Name=\"cell_normals\" NumberOfComponents=\"3\" format=\"ascii\"".toList,
      eigenPrint fm.real ⟨s.cells.length, 3, fun i j => s.normals i (Fin.ofNat 3 j)⟩), ("/DataArray".toList, ['\n'])] ++
  D.flatten ++
  [("/CellData".toList, ['\n']), ("Polys".toList, ['\n']),
   ("DataArray type=\"Int32\" Name=\"connectivity\" format=\"ascii\"".toList,
      '\n' :: eigenPrint (fun n : Nat => fm.int n) ⟨s.cells.length, 4, fun i j => (s.cells.getD i []).getD j 0⟩), ("/DataArray".toList, ['\n']),
   ("DataArray type=\"Int32\" Name=\"offsets\" format=\"ascii\"".toList,
      '\n' :: (List.range s.cells.length).flatMap fun i => fm.int (((i + 1) * 4 : Nat) : Int) ++ "\n".toList),
   ("/DataArray".toList, ['\n']), ("/Polys".toList, ['\n']), ("/Piece".toList, ['\n']), ("/PolyData".toList, ['\n']), ("/VTKFile".toList, [])]

theorem render_flatten (D : List (List (Str × Str))) : render D.flatten = (D.map render).flatten := by
  induction D with
  | nil => rfl
  | cons a D ih => rw [List.flatten_cons, render_append, ih, List.map_cons, List.flatten_cons]

set_option maxRecDepth 20000 in
theorem writeToFile_eq (fm : Formats) (s : Surface) (D : List (List (Str × Str))) (h : s.additionalData = D.map render) :
    s.writeToFile fm = render (surfaceEls fm s D) := by
  unfold Surface.writeToFile surfaceEls
  rw [render_append, render_append, render_flatten, ← h]
  simp [render]

theorem surfaceEls_plain {fm : Formats} (hf : fm.Ok) (s : Surface) {D : List (List (Str × Str))} (hD : ∀ d ∈ D, ∀ e ∈ d, Plain e.1 ∧ Plain e.2) :
    ∀ e ∈ surfaceEls fm s D, Plain e.1 ∧ Plain e.2 := by
  have nl : Plain ['\n'] := by unfold Plain; decide
  have nn : Plain [] := by unfold Plain; decide
  have ep : ∀ {α : Type} {fmt : α → Str} (_ : ∀ a, Token (fmt a)) (m : EMat α), Plain ('\n' :: eigenPrint fmt m) := fun h m =>
    nl.append (plain_eigenPrint h m)
  intro e he
  unfold surfaceEls at he
  rcases List.mem_append.1 he with he | he
  · rcases List.mem_append.1 he with he | he
    · simp only [List.mem_cons, List.not_mem_nil, or_false] at he
      rcases he with rfl | rfl | rfl | rfl | rfl | rfl | rfl | rfl | rfl | rfl | rfl | rfl
      · exact ⟨plain_lit _ (by decide), nl⟩
      · exact ⟨plain_lit _ (by decide), nl⟩
      · exact ⟨((((plain_lit _ (by decide)).append (plain_token (hf.int _))).append (plain_lit _ (by decide))).append (plain_token (hf.int _))).append
          (plain_lit _ (by decide)), nl⟩
      · exact ⟨plain_lit _ (by decide), nl⟩
      · exact ⟨plain_lit _ (by decide), ep hf.real _⟩
      · exact ⟨plain_lit _ (by decide), nl⟩
      · exact ⟨plain_lit _ (by decide), nn⟩
      · exact ⟨plain_lit _ (by decide), nl⟩
      · exact ⟨plain_lit _ (by decide), ep (fun n : Nat => hf.int n) _⟩
      · exact ⟨plain_lit _ (by decide), nl⟩
      · exact ⟨plain_lit _ (by decide), plain_eigenPrint hf.real _⟩
      · exact ⟨plain_lit _ (by decide), nl⟩
    · obtain ⟨d, hd, he⟩ := List.mem_flatten.1 he
      exact hD d hd e he
  · simp only [List.mem_cons, List.not_mem_nil, or_false] at he
    rcases he with rfl | rfl | rfl | rfl | rfl | rfl | rfl | rfl | rfl | rfl
    · exact ⟨plain_lit _ (by decide), nl⟩
    · exact ⟨plain_lit _ (by decide), nl⟩
    · exact ⟨plain_lit _ (by decide), ep (fun n : Nat => hf.int n) _⟩
    · exact ⟨plain_lit _ (by decide), nl⟩
    · exact ⟨plain_lit _ (by decide), nl.append (plain_flatMap fun _ _ => (plain_token (hf.int _)).append (plain_lit _ (by decide)))⟩
    · exact ⟨plain_lit _ (by decide), nl⟩
    · exact ⟨plain_lit _ (by decide), nl⟩
    · exact ⟨plain_lit _ (by decide), nl⟩
    · exact ⟨plain_lit _ (by decide), nl⟩
    · exact ⟨plain_lit _ (by decide), nn⟩

theorem words_lines {α : Type} (L : List α) (f : α → Str) (h : ∀ a, Token (f a)) : words (L.flatMap fun a => f a ++ "\n".toList) = L.map f := by
  induction L with
  | nil => simp
  | cons a L ih =>
    rw [List.flatMap_cons, show "\n".toList = ['\n'] from rfl, List.append_assoc, List.singleton_append, words_sep _ _ _ (by decide)]
    rw [show "\n".toList = ['\n'] from rfl] at ih
    rw [ih, words_token (h a)]
    rfl

variable (near : V3 → V3 → Bool) (corner : Nat → Nat → V3)

/-- C69: the file written by `VTKSurfaceExport` after any sequence of `addDataSet` and `clearData`.  With the mesh `t` whose elements are
`L`, it contains: the points of the mesh, each once; a polygon for every element, whose vertex numbers refer to the points at the four corners of
the element on the surface, in order; and for every polygon the number of its patch, the unit normal at the centre of the element, and
the values, at this centre, of all functions added since the last `clearData`. -/
theorem C69_surface (P M : Nat) (hP : 0 < P) (hc : ConformingPatches near corner P) (F nrm : Nat → ℝ × ℝ → V3) (hw : Watertight corner P F)
    (fm : Formats) (hf : fm.Ok) (calls : List Call) (hn : ∀ x ∈ current calls, Plain x.1) (junk : Nat → V3) (junkN : Nat → Nat) (junkR : Nat → ℝ)
    (junkC : Nat → ℂ) :
    ∃ (t : Mesh.Tree ℝ) (L : List Addr) (pts : Nat → V3) (file : Str), initElementTree near corner P M = some t ∧ elements t = some L ∧
      exportSurface fm near corner P M F nrm junk junkN junkR junkC calls = some file ∧
      (∀ a ∈ L, ∀ j < 4, t.vert a j < t.nPoints ∧ pts (t.vert a j) = F (t.patch a)
        ((t.llc a).1 + getH t a * (cornerPoint j : ℝ × ℝ).1, (t.llc a).2 + getH t a * (cornerPoint j : ℝ × ℝ).2)) ∧
      (∀ n < t.nPoints, ∃ a ∈ L, ∃ j < 4, t.vert a j = n) ∧
      scan file = surfaceItems fm t.nPoints L.length ((List.range t.nPoints).flatMap fun n => coords fm.real (pts n))
        (L.map fun a => fm.int (t.patch a)) (L.flatMap fun a => coords fm.real (normalized (nrm (t.patch a) (center t a))))
        (L.flatMap fun a => (List.range 4).map fun j => fm.int (t.vert a j))
        ((current calls).flatMap fun x => (components F x.1 x.2).map fun c =>
          ⟨c.1, c.2.1, L.flatMap fun a => (List.range c.2.1).map fun j => fm.sci (c.2.2 (t.patch a) (center t a) j)⟩) := by
  obtain ⟨t, h1, pts, cnt, h2, h3, h4, els, h5, -⟩ := C22_point_list (K := ℝ) near corner P M hP hc F hw junk
  obtain ⟨t', g1, g2, L, g3, g4, g5, g6⟩ := C20_uniform_mesh (K := ℝ) near corner P M hP
  obtain rfl : t = t' := Option.some.inj (h1.symm.trans g1)
  obtain ⟨t', k1, k2, k3, k4, k5, k6, k7⟩ := tree_facts (K := ℝ) near corner P M hP
  obtain rfl : t = t' := Option.some.inj (h1.symm.trans k1)
  have hLl : L = leaves P M := Option.some.inj (g3.symm.trans (elements_eq t P M hP k3 k6))
  have hid : ∀ n a, L[n]? = some a → t.id a = n := fun n a h => (g6 n a h).1
  have hlen : L.length = t.nElements := by rw [g4, g2]
  obtain ⟨N, n1, n2⟩ := cellData_eq g3 hid hlen junk fun p x => normalized (nrm p x)
  obtain ⟨pn, p1, p2⟩ := cellData_eq g3 hid hlen junkN fun p _ => p
  have hels : els = L.map fun a => (List.range 4).map (t.vert a) := by
    have : generateElementList t = some (L.map fun a => (List.range 4).map (t.vert a)) := by
      unfold generateElementList; rw [g3]; rfl
    exact Option.some.inj (h5.symm.trans this)
  have hinit : init near corner P M F nrm junk junkN = some ⟨t, F, pts, els, N, pn, []⟩ := by
    unfold init
    rw [h1]
    simp only [Option.bind_eq_bind, Option.bind_some, h2, h5, n1, p1]
  have hcl : els.length = L.length := by rw [hels, List.length_map]
  have hcalls := calls_eq (fm := fm) ⟨t, F, pts, els, N, pn, []⟩ g3 hid hlen hcl junkR junkC calls rfl
  set D := (current calls).flatMap (dataEls fm t F L) with hD
  have mid : ∀ a, referenceMidpoint t a = center t a := by
    intro a
    unfold referenceMidpoint center
    rw [one_div, inv_mul_eq_div]
  refine ⟨t, L, pts, Surface.writeToFile fm ⟨t, F, pts, els, N, pn, D.map render⟩, h1, g3, ?_, ?_, ?_, ?_⟩
  · unfold exportSurface
    rw [hinit]
    simp only [Option.bind_eq_bind, Option.bind_some]
    rw [hcalls]
    rfl
  · intro a ha j hj
    exact h3 a (mem_leaves.1 (hLl ▸ ha)) j hj
  · intro n hn
    obtain ⟨a, j, ha, hj, e⟩ := h4 n hn
    exact ⟨a, hLl ▸ mem_leaves.2 ha, j, hj, e⟩
  · rw [writeToFile_eq fm _ D rfl, scan_render _ (surfaceEls_plain hf _ ?_)]
    · have nl : ∀ s : Str, words ('\n' :: s) = words s := fun s => words_space _ _ (by decide)
      have tp : table fm.real ⟨t.nPoints, 3, fun i j => pts i (Fin.ofNat 3 j)⟩ = (List.range t.nPoints).flatMap fun n => coords fm.real (pts n) := rfl
      have tn : table fm.real ⟨L.length, 3, fun i j => N i (Fin.ofNat 3 j)⟩ =
          L.flatMap fun a => coords fm.real (normalized (nrm (t.patch a) (center t a))) := by
        rw [table_eq fm.real L 3 _ (fun a j => normalized (nrm (t.patch a) (center t a)) (Fin.ofNat 3 j))]
        · rfl
        · intro n a hna j _
          rw [n2 n a hna, mid]
      have tq : table (fun n : Nat => fm.int n) ⟨L.length, 1, fun i _ => pn i⟩ = L.map fun a => fm.int (t.patch a) := by
        rw [table_eq (fun n : Nat => fm.int n) L 1 _ (fun a _ => t.patch a)]
        · rw [← List.flatMap_singleton' (L.map _), List.flatMap_map]
          rfl
        · intro n a hna j _
          rw [p2 n a hna]
      have tc : table (fun n : Nat => fm.int n) ⟨L.length, 4, fun i j => (els.getD i []).getD j 0⟩ =
          L.flatMap fun a => (List.range 4).map fun j => fm.int (t.vert a j) := by
        rw [table_eq (fun n : Nat => fm.int n) L 4 _ (fun a j => t.vert a j)]
        intro n a hna j hj
        have : (els.getD n []) = (List.range 4).map (t.vert a) := by
          rw [hels, List.getD_eq_getElem?_getD, List.getElem?_map, hna]
          rfl
        rw [this]
        simp [hj]
      have td : D.flatten.map (fun e => (e.1, words e.2)) = ((current calls).flatMap fun x => (components F x.1 x.2).map fun c =>
          (⟨c.1, c.2.1, L.flatMap fun a => (List.range c.2.1).map fun j => fm.sci (c.2.2 (t.patch a) (center t a) j)⟩ : Array')).flatMap (Array'.items fm) := by
        rw [hD, List.flatten_eq_flatMap, List.map_flatMap, List.flatMap_assoc, List.flatMap_assoc]
        refine List.flatMap_congr fun x _ => ?_
        unfold dataEls
        rw [List.flatMap_map, List.flatMap_map]
        refine List.flatMap_congr fun c _ => ?_
        rw [id, arrayEls_items hf.sci]
        simp only
        rw [table_eq fm.sci L c.2.1 _ (fun a j => c.2.2 (t.patch a) (center t a) j)]
        intro n a hna j _
        unfold cellValue
        rw [hna]
        simp only [mid]
      unfold surfaceEls surfaceItems
      simp only [List.map_append, List.map_cons, List.map_nil, nl, words_nil, words_eigenPrint hf.real, words_eigenPrint (fun n : Nat => hf.int n),
        words_lines _ _ (fun i : Nat => hf.int (((i + 1) * 4 : Nat) : Int)), hcl, tp, tn, tq, tc, td, mul_comm 4]
    · intro d hd
      obtain ⟨x, hx, hd⟩ := List.mem_flatMap.1 hd
      obtain ⟨c, hc, rfl⟩ := List.mem_map.1 hd
      refine arrayEls_plain hf hf.sci ?_ _
      have hx' := hn x hx
      obtain ⟨name, f⟩ := x
      have hr : Plain (name ++ "_real".toList) := hx'.append (plain_lit _ (by decide))
      have hi : Plain (name ++ "_imag".toList) := hx'.append (plain_lit _ (by decide))
      cases f <;> simp only [components, List.mem_cons, List.not_mem_nil, or_false] at hc
      all_goals first
        | (rcases hc with rfl | rfl; exacts [hr, hi])
        | (subst hc; exact hx')

/-! ## Grids -/

theorem flatMap_getD {α β : Type} (X : List α) (z : α) (g : α → List β) : ((List.range X.length).flatMap fun i => g (X.getD i z)) = X.flatMap g := by
  rw [List.flatMap_def, List.flatMap_def]
  congr 1
  apply List.ext_getElem (by simp)
  intro n h1 h2
  have : n < X.length := by simpa using h1
  simp [this]

theorem map_getD {α β : Type} (X : List α) (z : α) (g : α → β) : ((List.range X.length).map fun i => g (X.getD i z)) = X.map g := by
  apply List.ext_getElem (by simp)
  intro n h1 h2
  have : n < X.length := by simpa using h1
  simp [this]

theorem range_mul (m n : Nat) : ((List.range n).flatMap fun z => (List.range m).map fun r => m * z + r) = List.range (m * n) := by
  induction n with
  | zero => simp
  | succ n ih => rw [List.range_succ, List.flatMap_append, ih, Nat.mul_succ, List.range_add]; simp

/-- The loops visit the rows in order. -/
theorem gridLoop_rows (nx ny nz : Nat) :
    (gridLoop nx ny nz).map (fun i => nx * ny * i.2.2 + nx * i.2.1 + i.1) = List.range (nx * ny * nz) := by
  rw [← range_mul (nx * ny) nz]
  unfold gridLoop
  rw [List.map_flatMap]
  refine List.flatMap_congr fun z _ => ?_
  rw [← range_mul nx ny, List.map_flatMap, List.map_flatMap]
  refine List.flatMap_congr fun y _ => ?_
  rw [List.map_map, List.map_map]
  refine List.map_congr_left fun x _ => ?_
  simp only [Function.comp]
  ring

theorem gridLoop_points (X Y Z : List ℝ) : (gridLoop X.length Y.length Z.length).map (gridPoint X Y Z) = gridPoints X Y Z := by
  unfold gridLoop gridPoints
  rw [List.map_flatMap, ← flatMap_getD Z 0]
  refine List.flatMap_congr fun z _ => ?_
  rw [List.map_flatMap, ← flatMap_getD Y 0]
  refine List.flatMap_congr fun y _ => ?_
  rw [List.map_map, ← map_getD X 0]
  rfl

theorem gridData_eq {α : Type} (X Y Z : List ℝ) (junk : Nat → α) (f : V3 → α) :
    ∃ d, gridData X Y Z junk f = some d ∧ ∀ n x, (gridPoints X Y Z)[n]? = some x → d n = f x := by
  have hr := gridLoop_rows X.length Y.length Z.length
  obtain ⟨d, e1, -, e3⟩ := rows_fold (X.length * Y.length * Z.length) (fun i : Nat × Nat × Nat => X.length * Y.length * i.2.2 + X.length * i.2.1 + i.1)
    (fun i => f (gridPoint X Y Z i)) (gridLoop X.length Y.length Z.length) 0 (fun n a h => by
      have := congrArg (fun l => l[n]?) hr
      have hlt : n < X.length * Y.length * Z.length := by
        have h' := (List.getElem?_eq_some_iff.1 h).1
        have := congrArg List.length hr
        simp only [List.length_map, List.length_range] at this
        omega
      simp only [List.getElem?_map, h, Option.map_some, List.getElem?_range hlt, Option.some.injEq] at this
      rw [this]; omega) (by
      have := congrArg List.length hr
      simp only [List.length_map, List.length_range] at this
      omega) junk
  refine ⟨d, e1, fun n x h => ?_⟩
  rw [← gridLoop_points, List.getElem?_map] at h
  cases hi : (gridLoop X.length Y.length Z.length)[n]? with
  | none => rw [hi] at h; simp at h
  | some i =>
    rw [hi] at h
    simp only [Option.map_some, Option.some.injEq] at h
    have := e3 n i hi
    rw [Nat.zero_add] at this
    rw [this, ← h]

theorem gridPoints_length (X Y Z : List ℝ) : (gridPoints X Y Z).length = X.length * Y.length * Z.length := by
  have := congrArg List.length (gridLoop_rows X.length Y.length Z.length)
  rw [← gridLoop_points, List.length_map]
  simpa using this

/-- The elements of a data array with the values of a function on a grid. -/
noncomputable def domainEls (fm : Formats) (X Y Z : List ℝ) : Str × DomainFun → List (Str × Str)
  | (name, .scalar f) => arrayEls fm fm.sci name ⟨(gridPoints X Y Z).length, 1, fun i _ => f ((gridPoints X Y Z).getD i 0)⟩
  | (name, .vector f) => arrayEls fm fm.sci name ⟨(gridPoints X Y Z).length, 3, fun i j => f ((gridPoints X Y Z).getD i 0) j⟩

theorem arrayEls_congr (fm : Formats) (fmt : ℝ → Str) (name : Str) (n c : Nat) (d d' : Nat → Nat → ℝ) (h : ∀ i < n, ∀ j < c, d i j = d' i j) :
    arrayEls fm fmt name ⟨n, c, d⟩ = arrayEls fm fmt name ⟨n, c, d'⟩ := by
  have hb : ((List.range n).flatMap fun i => ((List.range c).flatMap fun j => fmt (d i j) ++ [' ']) ++ ['\n']) =
      (List.range n).flatMap fun i => ((List.range c).flatMap fun j => fmt (d' i j) ++ [' ']) ++ ['\n'] := by
    refine List.flatMap_congr fun i hi => ?_
    congr 1
    refine List.flatMap_congr fun j hj => ?_
    rw [h i (List.mem_range.1 hi) j (List.mem_range.1 hj)]
  unfold arrayEls
  simp only [hb]

theorem domainCall_eq (fm : Formats) (junk : Nat → ℝ) (X Y Z : List ℝ) (data : List Str) (name : Str) (f : DomainFun) :
    domainCall fm junk X Y Z data (.add name f) = some (data ++ [render (domainEls fm X Y Z (name, f))]) := by
  have get : ∀ i < (gridPoints X Y Z).length, (gridPoints X Y Z)[i]? = some ((gridPoints X Y Z).getD i 0) := by
    intro i hi
    simp [hi]
  cases f with
  | scalar f =>
    obtain ⟨d, e1, e2⟩ := gridData_eq X Y Z junk f
    simp only [domainCall, e1, Option.bind_eq_bind, Option.bind_some, ← gridPoints_length]
    rw [dataArray_eq fm fm.sci name _ (Or.inl rfl), arrayEls_congr fm fm.sci name _ 1 _ (fun i _ => f ((gridPoints X Y Z).getD i 0))]
    · rfl
    · intro i hi j _
      exact e2 i _ (get i hi)
  | vector f =>
    obtain ⟨d, e1, e2⟩ := gridData_eq X Y Z (fun i _ => junk i) f
    simp only [domainCall, e1, Option.bind_eq_bind, Option.bind_some, ← gridPoints_length]
    rw [dataArray_eq fm fm.sci name _ (Or.inr rfl), arrayEls_congr fm fm.sci name _ 3 _ (fun i j => f ((gridPoints X Y Z).getD i 0) j)]
    · rfl
    · intro i hi j _
      rw [e2 i _ (get i hi)]

theorem domainCalls_eq (fm : Formats) (junk : Nat → ℝ) (X Y Z : List ℝ) (calls : List DomainCall) :
    calls.foldlM (domainCall fm junk X Y Z) [] = some ((currentDomain calls).map fun x => render (domainEls fm X Y Z x)) := by
  have gen : ∀ (calls : List DomainCall) (acc : List (Str × DomainFun)),
      calls.foldlM (domainCall fm junk X Y Z) (acc.map fun x => render (domainEls fm X Y Z x)) =
      some ((calls.foldl (fun l c => match c with
        | .add name f => l ++ [(name, f)]
        | .clear => []) acc).map fun x => render (domainEls fm X Y Z x)) := by
    intro calls
    induction calls with
    | nil => intro acc; rfl
    | cons c calls ih =>
      intro acc
      rw [List.foldlM_cons]
      cases c with
      | add name f =>
        rw [domainCall_eq]
        have := ih (acc ++ [(name, f)])
        rw [List.map_append] at this
        exact this
      | clear => exact ih []
  exact gen calls []

/-- The elements of the file. -/
noncomputable def gridEls (fm : Formats) (X Y Z : List ℝ) (D : List (List (Str × Str))) : List (Str × Str) :=
  let extent := "0 ".toList ++ fm.int ((X.length : Int) - 1) ++ " 0 ".toList ++ fm.int ((Y.length : Int) - 1) ++ " 0 ".toList ++ fm.int ((Z.length : Int) - 1)
  [("VTKFile type=\"StructuredGrid\" version=\"0.1\" byte_order=\"LittleEndian\"".toList, ['\n']),
   ("StructuredGrid WholeExtent=\"".toList ++ extent ++ "\"".toList, ['\n']), ("Piece Extent= \"".toList ++ extent ++ "\"".toList, ['\n']),
   ("Points".toList, ['\n']),
   ("DataArray type=\"Float32\" NumberOfComponents=\"3\" format=\"ascii\"".toList,
      '\n' :: (gridLoop X.length Y.length Z.length).flatMap fun i =>
        fm.real (X.getD i.1 0) ++ " ".toList ++ fm.real (Y.getD i.2.1 0) ++ " ".toList ++ fm.real (Z.getD i.2.2 0) ++ "\n".toList),
   ("/DataArray".toList, ['\n']), ("/Points".toList, ['\n']),
   ("PointData".toList, ['\n'])] ++
  D.flatten ++
  [("/PointData".toList, ['\n']), ("/Piece".toList, ['\n']), ("/StructuredGrid".toList, ['\n']), ("/VTKFile".toList, ['\n'])]

set_option maxRecDepth 20000 in
/-- C70: the file written by `VTKDomainExport` after any sequence of `addDataSet` and `clearData`: a structured grid whose points are the tensor product
of the three vectors with the first coordinate running fastest (as VTK expects), and for every function added since the last `clearData` its
values in these points, in the same order. -/
theorem C70_grid (fm : Formats) (hf : fm.Ok) (X Y Z : List ℝ) (calls : List DomainCall) (hn : ∀ x ∈ currentDomain calls, Plain x.1) (junk : Nat → ℝ) :
    ∃ file, exportDomain fm junk X Y Z calls = some file ∧
      scan file = gridItems fm X.length Y.length Z.length ((gridPoints X Y Z).flatMap (coords fm.real))
        ((currentDomain calls).map (domainArray fm (gridPoints X Y Z))) := by
  set D := (currentDomain calls).map (domainEls fm X Y Z) with hD
  refine ⟨render (gridEls fm X Y Z D), ?_, ?_⟩
  · unfold exportDomain
    rw [domainCalls_eq]
    simp only [Option.bind_eq_bind, Option.bind_some]
    rw [show ((currentDomain calls).map fun x => render (domainEls fm X Y Z x)) = D.map render by rw [hD, List.map_map]; rfl]
    unfold gridEls
    simp only
    rw [render_append, render_append, render_flatten]
    simp [render]
  · have nl : Plain ['\n'] := by unfold Plain; decide
    have pe : Plain ("0 ".toList ++ fm.int ((X.length : Int) - 1) ++ " 0 ".toList ++ fm.int ((Y.length : Int) - 1) ++ " 0 ".toList ++ fm.int ((Z.length : Int) - 1)) :=
      (((((plain_lit _ (by decide)).append (plain_token (hf.int _))).append (plain_lit _ (by decide))).append (plain_token (hf.int _))).append
        (plain_lit _ (by decide))).append (plain_token (hf.int _))
    have hpl : ∀ e ∈ gridEls fm X Y Z D, Plain e.1 ∧ Plain e.2 := by
      intro e he
      unfold gridEls at he
      simp only at he
      rcases List.mem_append.1 he with he | he
      · rcases List.mem_append.1 he with he | he
        · simp only [List.mem_cons, List.not_mem_nil, or_false] at he
          rcases he with rfl | rfl | rfl | rfl | rfl | rfl | rfl | rfl
          · exact ⟨plain_lit _ (by decide), nl⟩
          · exact ⟨((plain_lit _ (by decide)).append pe).append (plain_lit _ (by decide)), nl⟩
          · exact ⟨((plain_lit _ (by decide)).append pe).append (plain_lit _ (by decide)), nl⟩
          · exact ⟨plain_lit _ (by decide), nl⟩
          · exact ⟨plain_lit _ (by decide), nl.append (plain_flatMap fun _ _ => (((((plain_token (hf.real _)).append (plain_lit _ (by decide))).append
              (plain_token (hf.real _))).append (plain_lit _ (by decide))).append (plain_token (hf.real _))).append (plain_lit _ (by decide)))⟩
          · exact ⟨plain_lit _ (by decide), nl⟩
          · exact ⟨plain_lit _ (by decide), nl⟩
          · exact ⟨plain_lit _ (by decide), nl⟩
        · obtain ⟨d, hd, he⟩ := List.mem_flatten.1 he
          obtain ⟨⟨name, f⟩, hx, rfl⟩ := List.mem_map.1 hd
          have := hn _ hx
          cases f <;> exact arrayEls_plain hf hf.sci this _ e he
      · simp only [List.mem_cons, List.not_mem_nil, or_false] at he
        rcases he with rfl | rfl | rfl | rfl <;> exact ⟨plain_lit _ (by decide), nl⟩
    rw [scan_render _ hpl]
    have nlw : ∀ s : Str, words ('\n' :: s) = words s := fun s => words_space _ _ (by decide)
    have tp : words ((gridLoop X.length Y.length Z.length).flatMap fun i =>
        fm.real (X.getD i.1 0) ++ " ".toList ++ fm.real (Y.getD i.2.1 0) ++ " ".toList ++ fm.real (Z.getD i.2.2 0) ++ "\n".toList) =
        (gridPoints X Y Z).flatMap (coords fm.real) := by
      rw [← gridLoop_points, List.flatMap_map]
      generalize gridLoop X.length Y.length Z.length = G
      induction G with
      | nil => simp
      | cons i G ih =>
        rw [List.flatMap_cons, List.flatMap_cons, ← ih, show "\n".toList = ['\n'] from rfl, show " ".toList = [' '] from rfl]
        simp only [List.append_assoc, List.cons_append, List.nil_append]
        rw [words_sep _ _ _ (by decide), words_sep _ _ _ (by decide), words_sep _ _ _ (by decide), words_token (hf.real _),
          words_token (hf.real _), words_token (hf.real _)]
        rfl
    have td : D.flatten.map (fun e => (e.1, words e.2)) =
        ((currentDomain calls).map (domainArray fm (gridPoints X Y Z))).flatMap (Array'.items fm) := by
      rw [hD, List.flatten_eq_flatMap, List.map_flatMap, List.flatMap_map, List.flatMap_map]
      refine List.flatMap_congr fun x _ => ?_
      obtain ⟨name, f⟩ := x
      cases f with
      | scalar f =>
        simp only [id, domainEls, domainArray]
        rw [arrayEls_items hf.sci, table_eq fm.sci (gridPoints X Y Z) 1 _ (fun x _ => f x)]
        · simp only
          rw [← List.flatMap_singleton' ((gridPoints X Y Z).map _), List.flatMap_map]
          rfl
        · intro n x h j _
          simp [h]
      | vector f =>
        simp only [id, domainEls, domainArray]
        rw [arrayEls_items hf.sci, table_eq fm.sci (gridPoints X Y Z) 3 _ (fun x j => f x j)]
        · rfl
        · intro n x h j _
          simp [h]
    unfold gridEls gridItems
    simp only [List.map_append, List.map_cons, List.map_nil, nlw, words_nil, tp, td]

/-! ## Points -/

theorem pointCalls_eq (fm : Formats) (calls : List PointCall) (hc : ∀ c ∈ calls, match c with
      | .add _ m => m.cols = 1 ∨ m.cols = 3
      | .addComplex _ m => m.cols = 1 ∨ m.cols = 3
      | .clear => True) :
    calls.foldlM (pointCall fm) [] = some ((currentPoint calls).map fun x => render (arrayEls fm fm.fixed x.1 x.2)) := by
  have gen : ∀ (calls : List PointCall) (_ : ∀ c ∈ calls, match c with
      | .add _ m => m.cols = 1 ∨ m.cols = 3
      | .addComplex _ m => m.cols = 1 ∨ m.cols = 3
      | .clear => True) (acc : List (Str × EMat ℝ)),
      calls.foldlM (pointCall fm) (acc.map fun x => render (arrayEls fm fm.fixed x.1 x.2)) =
      some ((calls.foldl (fun l c => match c with
        | .add name m => l ++ [(name, m)]
        | .addComplex name m => l ++ [(name ++ "_real".toList, ⟨m.rows, m.cols, fun i j => (m.at' i j).re⟩),
          (name ++ "_imag".toList, ⟨m.rows, m.cols, fun i j => (m.at' i j).im⟩)]
        | .clear => []) acc).map fun x => render (arrayEls fm fm.fixed x.1 x.2)) := by
    intro calls
    induction calls with
    | nil => intro _ acc; rfl
    | cons c calls ih =>
      intro hc acc
      have ih := ih fun c h => hc c (by simp [h])
      have h0 := hc c (by simp)
      rw [List.foldlM_cons]
      cases c with
      | add name m =>
        simp only [pointCall]
        rw [dataArray_eq fm fm.fixed name m h0]
        have := ih (acc ++ [(name, m)])
        rw [List.map_append] at this
        exact this
      | addComplex name m =>
        simp only [pointCall]
        rw [dataArray_eq fm fm.fixed _ ⟨m.rows, m.cols, _⟩ h0, dataArray_eq fm fm.fixed _ ⟨m.rows, m.cols, _⟩ h0]
        have := ih (acc ++ [(name ++ "_real".toList, ⟨m.rows, m.cols, fun i j => (m.at' i j).re⟩),
          (name ++ "_imag".toList, ⟨m.rows, m.cols, fun i j => (m.at' i j).im⟩)])
        rw [List.map_append] at this
        simp only [Option.bind_eq_bind, Option.bind_some, List.append_assoc]
        exact this
      | clear => exact ih []
  exact gen calls hc []

/-- The elements of the file. -/
noncomputable def pointEls (fm : Formats) (points : EMat ℝ) (D : List (List (Str × Str))) : List (Str × Str) :=
  [("VTKFile type=\"PolyData\" version=\"0.1\" byte_order=\"LittleEndian\"".toList, ['\n']), ("PolyData".toList, ['\n']),
   ("Piece NumberOfPoints=\" ".toList ++ fm.int points.rows ++ "\" NumberOfVerts=\"0\" NumberOfLines=\"0\" NumberOfStrips=\"0\" NumberOfPolys=\"0\"".toList, ['\n']),
   ("Points".toList, ['\n']),
   ("DataArray type=\"Float32\" NumberOfComponents=\"3\" format=\"ascii\"".toList, '\n' :: (eigenPrint fm.real points ++ ['\n'])),
   ("/DataArray".toList, ['\n']), ("/Points".toList, ['\n']),
   ("PointData Scalars=\"number\"".toList, ['\n']),
   ("DataArray type=\"Int32\" Name=\"number\" format=\"ascii\"".toList,
      '\n' :: eigenPrint (fun n : Nat => fm.int n) ⟨points.rows, 1, fun i _ => i⟩), ("/DataArray".toList, ['\n'])] ++
  D.flatten ++
  [("/PointData".toList, ['\n']), ("/Piece".toList, ['\n']), ("/PolyData".toList, ['\n']), ("/VTKFile".toList, [])]

set_option maxRecDepth 20000 in
/-- C70: the file written by `VTKPointExport` after any sequence of `addDataSet`, `addComplexDataSet` and `clearData` with matrices of one or three
columns: the points, numbered consecutively, and the matrices added since the last `clearData`, row by row. -/
theorem C70_points (fm : Formats) (hf : fm.Ok) (points : EMat ℝ) (calls : List PointCall) (hc : ∀ c ∈ calls, match c with
      | .add _ m => m.cols = 1 ∨ m.cols = 3
      | .addComplex _ m => m.cols = 1 ∨ m.cols = 3
      | .clear => True) (hn : ∀ x ∈ currentPoint calls, Plain x.1) :
    ∃ file, exportPoints fm points calls = some file ∧
      scan file = pointItems fm points.rows (table fm.real points) ((currentPoint calls).map fun x => ⟨x.1, x.2.cols, table fm.fixed x.2⟩) := by
  set D := (currentPoint calls).map (fun x => arrayEls fm fm.fixed x.1 x.2) with hD
  refine ⟨render (pointEls fm points D), ?_, ?_⟩
  · unfold exportPoints
    rw [pointCalls_eq fm calls hc]
    simp only [Option.bind_eq_bind, Option.bind_some]
    rw [show ((currentPoint calls).map fun x => render (arrayEls fm fm.fixed x.1 x.2)) = D.map render by rw [hD, List.map_map]; rfl]
    unfold pointEls
    rw [render_append, render_append, render_flatten]
    simp [render]
  · have nl : Plain ['\n'] := by unfold Plain; decide
    have hpl : ∀ e ∈ pointEls fm points D, Plain e.1 ∧ Plain e.2 := by
      intro e he
      unfold pointEls at he
      rcases List.mem_append.1 he with he | he
      · rcases List.mem_append.1 he with he | he
        · simp only [List.mem_cons, List.not_mem_nil, or_false] at he
          rcases he with rfl | rfl | rfl | rfl | rfl | rfl | rfl | rfl | rfl | rfl
          · exact ⟨plain_lit _ (by decide), nl⟩
          · exact ⟨plain_lit _ (by decide), nl⟩
          · exact ⟨((plain_lit _ (by decide)).append (plain_token (hf.int _))).append (plain_lit _ (by decide)), nl⟩
          · exact ⟨plain_lit _ (by decide), nl⟩
          · exact ⟨plain_lit _ (by decide), nl.append ((plain_eigenPrint hf.real _).append nl)⟩
          · exact ⟨plain_lit _ (by decide), nl⟩
          · exact ⟨plain_lit _ (by decide), nl⟩
          · exact ⟨plain_lit _ (by decide), nl⟩
          · exact ⟨plain_lit _ (by decide), nl.append (plain_eigenPrint (fun n : Nat => hf.int n) _)⟩
          · exact ⟨plain_lit _ (by decide), nl⟩
        · obtain ⟨d, hd, he⟩ := List.mem_flatten.1 he
          obtain ⟨x, hx, rfl⟩ := List.mem_map.1 hd
          exact arrayEls_plain hf hf.fixed (hn _ hx) _ e he
      · simp only [List.mem_cons, List.not_mem_nil, or_false] at he
        rcases he with rfl | rfl | rfl | rfl
        · exact ⟨plain_lit _ (by decide), nl⟩
        · exact ⟨plain_lit _ (by decide), nl⟩
        · exact ⟨plain_lit _ (by decide), nl⟩
        · exact ⟨plain_lit _ (by decide), by unfold Plain; decide⟩
    rw [scan_render _ hpl]
    have nlw : ∀ s : Str, words ('\n' :: s) = words s := fun s => words_space _ _ (by decide)
    have lw : ∀ s : Str, words (s ++ ['\n']) = words s := fun s => words_append_space _ _ (by decide)
    have tn : table (fun n : Nat => fm.int n) ⟨points.rows, 1, fun i _ => i⟩ = (List.range points.rows).map fun i : Nat => fm.int i := by
      unfold table
      rw [← List.flatMap_singleton' ((List.range points.rows).map _), List.flatMap_map]
      rfl
    have td : D.flatten.map (fun e => (e.1, words e.2)) =
        ((currentPoint calls).map fun x => (⟨x.1, x.2.cols, table fm.fixed x.2⟩ : Array')).flatMap (Array'.items fm) := by
      rw [hD, List.flatten_eq_flatMap, List.map_flatMap, List.flatMap_map, List.flatMap_map]
      refine List.flatMap_congr fun x _ => ?_
      rw [id, arrayEls_items hf.fixed]
    unfold pointEls pointItems
    simp only [List.map_append, List.map_cons, List.map_nil, nlw, lw, words_nil, words_eigenPrint hf.real, words_eigenPrint (fun n : Nat => hf.int n), tn, td]

/-! ## Non-vacuity -/

/-- A way to print numbers. -/
noncomputable def demoFormats : Formats where
  real x := Nat.toDigits 10 ⌊|x|⌋₊
  sci x := Nat.toDigits 10 ⌊|x|⌋₊
  fixed x := Nat.toDigits 10 ⌊|x|⌋₊
  int n := Nat.toDigits 10 n.natAbs

theorem token_digits (n : Nat) : Token (Nat.toDigits 10 n) := by
  refine ⟨by simp, fun c hc => ?_⟩
  have := Nat.isDigit_of_mem_toDigits (by norm_num) (by norm_num) hc
  have hr : '0'.val ≤ c.val ∧ c.val ≤ '9'.val := by simpa [Char.isDigit] using this
  refine ⟨?_, ?_, ?_⟩
  · unfold Char.isWhitespace
    simp only [Bool.or_eq_false_iff, decide_eq_false_iff_not]
    refine ⟨⟨⟨?_, ?_⟩, ?_⟩, ?_⟩ <;> (rintro rfl; revert hr; decide)
  · rintro rfl; revert hr; decide
  · rintro rfl; revert hr; decide

theorem demoFormats_ok : demoFormats.Ok := ⟨fun _ => token_digits _, fun _ => token_digits _, fun _ => token_digits _, fun _ => token_digits _⟩

/-- The plane in space. -/
noncomputable def plane (x : ℝ × ℝ) : V3 := !₂[x.1, x.2, 0]

theorem plane_inj {x y : ℝ × ℝ} (h : plane x = plane y) : x = y := by
  have h0 := congrFun (congrArg WithLp.ofLp h) 0
  have h1 := congrFun (congrArg WithLp.ofLp h) 1
  simp [plane] at h0 h1
  exact Prod.ext h0 h1

open scoped Classical in
/-- The hypotheses of C69 are met by two unit squares side by side with normal `(0,0,2)`, three functions and one call of `clearData`. -/
example (M : Nat) (junk : Nat → V3) (junkN : Nat → Nat) (junkR : Nat → ℝ) (junkC : Nat → ℂ) :=
  C69_surface (fun a b => @decide (a = b) (Classical.propDecidable _)) (fun p i => plane (stripPoint (stripCorner p i))) 2 M (by norm_num)
    (conforming_map (fun n => plane (stripPoint n)) (fun m n h => stripPoint_inj m n (plane_inj h)) stripCorner 2 strip_conforming)
    (fun p x => plane (stripMap p x)) (fun _ _ => !₂[0, 0, 2])
    ⟨fun p hp i hi => by rw [strip_watertight.corners p hp i hi],
      fun p hp q hq h i hi j hj h1 h2 s s0 s1 => by rw [strip_watertight.same p hp q hq h i hi j hj (plane_inj h1) (plane_inj h2) s s0 s1],
      fun p hp q hq h i hi j hj h1 h2 s s0 s1 => by rw [strip_watertight.opposite p hp q hq h i hi j hj (plane_inj h1) (plane_inj h2) s s0 s1]⟩
    demoFormats demoFormats_ok
    [.add "a".toList (.real fun p _ => p), .clear, .add "rho".toList (.complex fun _ x => ⟨x.1, x.2⟩), .add "E".toList (.spaceVector fun x j => x (Fin.ofNat 3 j))]
    (by simp [current]; refine ⟨?_, ?_⟩ <;> (unfold Plain; decide)) junk junkN junkR junkC

/-- A grid with six points and two functions. -/
example (junk : Nat → ℝ) := C70_grid demoFormats demoFormats_ok [0, 1, 2] [0, 5] [7]
  [.add "u".toList (.scalar fun x => x 0), .clear, .add "v".toList (.scalar fun x => x 1), .add "w".toList (.vector fun x j => x (Fin.ofNat 3 j))]
  (by simp [currentDomain]; refine ⟨?_, ?_⟩ <;> (unfold Plain; decide)) junk

/-- Two points with real and complex data. -/
example := C70_points demoFormats demoFormats_ok ⟨2, 3, fun i j => i + j⟩
  [.add "u".toList ⟨2, 1, fun i _ => i⟩, .addComplex "v".toList ⟨2, 3, fun i j => ⟨i, j⟩⟩] (by simp)
  (by simp [currentPoint]; refine ⟨?_, ?_, ?_⟩ <;> (unfold Plain; decide))

/-- The arrays of the example as a reader sees them. -/
example : scan "<A x=\"1\">\n 12 3 </A>".toList = [("A x=\"1\"".toList, ["12".toList, "3".toList]), ("/A".toList, [])] := by decide

end Bembel.Props
