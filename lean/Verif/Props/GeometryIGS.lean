import Verif.Model.GeometryIGS
import Verif.Props.GeometryIO
/-!
# Property theorems C16, C17: IGES parameter section and file suffix
-/

set_option linter.unusedSectionVars false

namespace Bembel.Props

open Bembel.Basis Bembel.Spl Bembel.Geo

variable {K : Type} [Field K] [LinearOrder K] [IsStrictOrderedRing K]

/-! ## C16 -/

/-- Specification: the terminated entries, `,` after each but the last, which gets `;`. -/
def terminated (data : List (List Char)) : List (List Char) :=
  (List.range data.length).map fun i =>
    data.getD i [] ++ (if i + 1 < data.length then [','] else [';'])

theorem terminated_append (ds : List (List Char)) (d : List Char) :
    terminated (ds ++ [d]) = ds.map (· ++ [',']) ++ [d ++ [';']] := by
  unfold terminated
  rw [List.length_append, List.length_singleton, List.range_succ, List.map_append]
  congr 1
  · apply List.ext_getElem (by simp)
    intro i h1 h2
    have hi : i < ds.length := by simpa using h2
    simp [hi, List.getElem?_append]
  · simp

/-- C16: the lines are groups of consecutive whole terminated entries, in order, nothing lost or added. -/
theorem C16_lines_group_entries (data : List (List Char)) (w : Nat) :
    ∃ groups : List (List (List Char)), groups.flatten = terminated data ∧
      makeSection data w = groups.map List.flatten := by
  have key : ∀ n, n ≤ data.length → ∃ (groups : List (List (List Char))) (cur : List (List Char)),
      groups.flatten ++ cur = (terminated data).take n ∧
      forLoop n (sectionStep data w) ([], []) = (groups.map List.flatten, cur.flatten) := by
    intro n
    induction n with
    | zero => intro _; exact ⟨[], [], by simp, rfl⟩
    | succ n ih =>
      intro hn
      obtain ⟨groups, cur, h1, h2⟩ := ih (by omega)
      have ht : (terminated data)[n]? =
          some (data.getD n [] ++ (if n + 1 < data.length then [','] else [';'])) := by
        unfold terminated
        rw [List.getElem?_map, List.getElem?_range (by omega)]; rfl
      rw [forLoop_succ, h2, List.take_succ, ht, ← h1]
      unfold sectionStep
      generalize hit : data.getD n [] ++ (if n + 1 < data.length then [','] else [';']) = item
      by_cases hw : cur.flatten.length + item.length > w
      · refine ⟨groups ++ [cur], [item], by simp, ?_⟩
        simp only [if_pos hw]; simp
      · refine ⟨groups, cur ++ [item], by simp, ?_⟩
        simp only [if_neg hw]; simp
  obtain ⟨groups, cur, h1, h2⟩ := key _ le_rfl
  refine ⟨groups ++ [cur], ?_, ?_⟩
  · have hl : (terminated data).length = data.length := by simp [terminated]
    rw [List.flatten_append, List.flatten_singleton, h1, ← hl, List.take_length]
  · unfold makeSection
    rw [h2]; simp

/-- C16: no line is longer than the line width when every entry with its separator fits. -/
theorem C16_line_width (data : List (List Char)) (w : Nat) (h : ∀ d ∈ data, d.length + 1 ≤ w) :
    ∀ line ∈ makeSection data w, line.length ≤ w := by
  have key : ∀ n, n ≤ data.length → ∀ line,
      line ∈ (forLoop n (sectionStep data w) ([], [])).1 ++ [(forLoop n (sectionStep data w) ([], [])).2] →
      line.length ≤ w := by
    intro n
    induction n with
    | zero => intro _ line hl; simp at hl; simp [hl]
    | succ n ih =>
      intro hn line hl
      have ih := ih (by omega)
      rw [forLoop_succ] at hl
      generalize forLoop n (sectionStep data w) ([], []) = st at hl ih
      have hitem : (data.getD n [] ++ (if n + 1 < data.length then [','] else [';'])).length ≤ w := by
        have hmem : data.getD n [] ∈ data := by
          rw [List.getD_eq_getElem?_getD, List.getElem?_eq_getElem (by omega)]
          exact List.getElem_mem _
        have := h _ hmem
        split_ifs <;> simpa using this
      unfold sectionStep at hl
      generalize data.getD n [] ++ (if n + 1 < data.length then [','] else [';']) = item at hl hitem
      by_cases hw : st.2.length + item.length > w
      · simp only [if_pos hw] at hl
        simp only [List.append_assoc, List.nil_append, List.mem_append, List.mem_singleton] at hl
        rcases hl with h1 | h1 | h1
        · exact ih line (by simp [h1])
        · exact ih line (by simp [h1])
        · rw [h1]; exact hitem
      · simp only [if_neg hw] at hl
        simp only [List.mem_append, List.mem_singleton] at hl
        rcases hl with h1 | h1
        · exact ih line (by simp [h1])
        · rw [h1, List.length_append]; omega
  unfold makeSection
  exact key _ le_rfl

example : ∀ d ∈ ["128".toList, "1".toList], d.length + 1 ≤ 64 := by decide

theorem splitComma_noComma (acc t : List Char) (ht : ',' ∉ t) :
    splitComma acc t = if acc ++ t = [] then [] else [acc ++ t] := by
  induction t generalizing acc with
  | nil => simp [splitComma]
  | cons c t ih =>
    have hc : c ≠ ',' := by rintro rfl; simp at ht
    rw [splitComma, if_neg hc, ih _ (fun h => ht (by simp [h]))]
    simp

theorem splitComma_item (acc e rest : List Char) (he : ',' ∉ e) :
    splitComma acc (e ++ ',' :: rest) = (acc ++ e) :: splitComma [] rest := by
  induction e generalizing acc with
  | nil => simp [splitComma]
  | cons c e ih =>
    have hc : c ≠ ',' := by rintro rfl; simp at he
    rw [List.cons_append, splitComma, if_neg hc, ih _ (fun h => he (by simp [h]))]
    simp

theorem splitComma_items (es : List (List Char)) (t : List Char) (he : ∀ e ∈ es, ',' ∉ e) :
    splitComma [] ((es.map (· ++ [','])).flatten ++ t) = es ++ splitComma [] t := by
  induction es with
  | nil => simp
  | cons e es ih =>
    have := splitComma_item [] e ((es.map (· ++ [','])).flatten ++ t) (he e (by simp))
    simp only [List.map_cons, List.flatten_cons, List.append_assoc, List.cons_append, List.nil_append] at this ⊢
    rw [this, ih (fun e h => he e (by simp [h]))]

theorem groups_split (groups : List (List (List Char))) : ∀ (es : List (List Char)) (l : List (List Char)),
    (∀ e ∈ es, ',' ∉ e) → (∀ t ∈ l, ',' ∉ t ∧ t ≠ []) → l.length ≤ 1 →
    groups.flatten = es.map (· ++ [',']) ++ l →
    groups.flatMap (fun g => splitComma [] g.flatten) = es ++ l := by
  induction groups with
  | nil =>
    intro es l _ _ _ h
    simp only [List.flatten_nil, List.nil_eq, List.append_eq_nil_iff, List.map_eq_nil_iff] at h
    simp [h.1, h.2]
  | cons g gs ih =>
    intro es l he hl hl1 h
    rw [List.flatten_cons, List.append_eq_append_iff] at h
    rw [List.flatMap_cons]
    rcases h with ⟨as, h1, h2⟩ | ⟨bs, h1, h2⟩
    · -- g lies in the comma part
      obtain ⟨e1, e2, rfl, h3, h4⟩ := List.map_eq_append_iff.1 h1
      rw [← h3, ih e2 l (fun e h => he e (by simp [h])) hl hl1 (by rw [h2, h4])]
      have := splitComma_items e1 [] (fun e h => he e (by simp [h]))
      simp only [List.append_nil, splitComma, if_true] at this
      rw [this, List.append_assoc]
    · rw [h1]
      rw [ih [] gs.flatten (by simp) (fun t ht => hl t (by rw [h2]; simp [ht]))
        (by rw [h2, List.length_append] at hl1; omega) (by simp)]
      rw [List.flatten_append, splitComma_items es _ he, List.nil_append, List.append_assoc, h2]
      congr 2
      match bs, h2 with
      | [], _ => simp [splitComma]
      | [t], h2 =>
        have ht := hl t (by rw [h2]; simp)
        rw [List.flatten_singleton, splitComma_noComma [] t ht.1, List.nil_append, if_neg ht.2]
      | a :: b :: bs, h2 => rw [h2] at hl1; simp at hl1

theorem map_getD_range {α : Type} (l : List (List α)) : (List.range l.length).map (fun k => l.getD k []) = l := by
  apply List.ext_getElem (by simp)
  intro i h1 h2
  simp [h2]

/-- Reading the parameter lines back. -/
theorem lineWords_section (ds : List (List Char)) (d : List Char) (tail : Nat → List Char)
    (h : ∀ e ∈ ds ++ [d], e.length + 1 ≤ 64 ∧ ',' ∉ e ∧ ' ' ∉ e) :
    (writeParameterSection (makeSection (ds ++ [d]) 64) tail).flatMap lineWords = ds ++ [d ++ [';']] := by
  obtain ⟨groups, h1, h2⟩ := C16_lines_group_entries (ds ++ [d]) 64
  have hw := C16_line_width (ds ++ [d]) 64 (fun e he => (h e he).1)
  rw [terminated_append] at h1
  have hblank : ∀ line ∈ makeSection (ds ++ [d]) 64, ' ' ∉ line := by
    intro line hl hb
    rw [h2] at hl
    obtain ⟨g, hg, rfl⟩ := List.mem_map.1 hl
    obtain ⟨it, hit, hb⟩ := List.mem_flatten.1 hb
    have : it ∈ groups.flatten := List.mem_flatten.2 ⟨g, hg, hit⟩
    rw [h1, List.mem_append, List.mem_map, List.mem_singleton] at this
    rcases this with ⟨e, he, rfl⟩ | rfl
    · have := (h e (by simp [he])).2.2
      simp [this] at hb
    · have := (h d (by simp)).2.2
      simp [this] at hb
  have hline : ∀ line ∈ makeSection (ds ++ [d]) 64, ∀ t : List Char,
      lineWords (line ++ List.replicate (64 - line.length) ' ' ++ t) = splitComma [] line := by
    intro line hl t
    unfold lineWords
    have hlen : (line ++ List.replicate (64 - line.length) ' ').length = 64 := by
      have := hw line hl
      simp; omega
    rw [List.take_append_of_le_length (by omega), List.take_of_length_le (by omega), List.filter_append]
    have hb := hblank line hl
    have f1 : line.filter (fun c => decide (c ≠ ' ')) = line := by
      rw [List.filter_eq_self]
      intro c hc
      have : c ≠ ' ' := by rintro rfl; exact hb hc
      simpa using this
    have f2 : ∀ n, (List.replicate n ' ').filter (fun c => decide (c ≠ ' ')) = [] := by
      intro n; rw [List.filter_eq_nil_iff]; intro c hc; simp [List.eq_of_mem_replicate hc]
    rw [f1, f2, List.append_nil]
  have hall : (writeParameterSection (makeSection (ds ++ [d]) 64) tail).flatMap lineWords =
      (makeSection (ds ++ [d]) 64).flatMap (splitComma []) := by
    generalize makeSection (ds ++ [d]) 64 = sec at hline
    unfold writeParameterSection
    rw [List.flatMap_map]
    have : (List.range sec.length).flatMap (fun k => lineWords (sec.getD k [] ++
        List.replicate (64 - (sec.getD k []).length) ' ' ++ tail k)) =
        (List.range sec.length).flatMap (fun k => splitComma [] (sec.getD k [])) := by
      apply List.flatMap_congr
      intro k hk
      rw [List.mem_range] at hk
      apply hline
      rw [List.getD_eq_getElem?_getD, List.getElem?_eq_getElem hk]
      exact List.getElem_mem _
    rw [this]
    conv_rhs => rw [← map_getD_range sec]
    rw [List.flatMap_map]
  rw [hall, h2, List.flatMap_map]
  exact groups_split groups ds [d ++ [';']] (fun e he => (h e (by simp [he])).2.1)
    (fun t ht => by
      rw [List.mem_singleton] at ht
      subst ht
      have := (h d (by simp)).2.1
      exact ⟨by simp [this], by simp⟩) (by simp) h1

/-- C16: writing a non-empty list of entries to parameter lines and reading the lines gives the same entries
(the last word still carries the record delimiter `;`, which `atof` ignores); the text in columns 64 and
following does not matter. -/
theorem C16_read_entries (data : List (List Char)) (hne : data ≠ []) (tail : Nat → List Char)
    (h : ∀ e ∈ data, e.length + 1 ≤ 64 ∧ ',' ∉ e ∧ ' ' ∉ e) :
    (writeParameterSection (makeSection data 64) tail).flatMap lineWords =
      data.dropLast ++ [data.getLast hne ++ [';']] := by
  have := lineWords_section data.dropLast (data.getLast hne) tail
    (by rw [List.dropLast_append_getLast]; exact h)
  rwa [List.dropLast_append_getLast] at this

/-- Non-vacuity: three entries. -/
example : ["128".toList, "1".toList, "0.5".toList] ≠ [] ∧ ∀ e ∈ ["128".toList, "1".toList, "0.5".toList],
    e.length + 1 ≤ 64 ∧ ',' ∉ e ∧ ' ' ∉ e := by decide

/-- C16: the entry list of a patch with `n` control points and knot vectors of `a` and `b` knots has
`16 + 4 n + a + b` entries. -/
theorem C16_entry_count (p : Patch K) (kx ky : List K) :
    (igsEntries p kx ky).length = 16 + 4 * (p.data.length / 4) + kx.length + ky.length := by
  simp [igsEntries, List.length_flatMap]; omega

theorem upd_apply' {α : Type} (v : Nat → α) (i : Nat) (x : α) (j : Nat) :
    upd v i x j = if j = i then x else v j := rfl

/-- The reordering writes of `writePatchData` as a function. -/
theorem reorder_apply (nx ny : Nat) (hny : 0 < ny) (g : Nat → K) (m : Nat) (hm : m ≤ nx * ny) (i j : Nat)
    (hi : i < nx) (hj : j < ny) :
    forLoop m (fun v i => upd v (i % ny * nx + i / ny) (g i)) (fun _ => (0 : K)) (j * nx + i) =
      if i * ny + j < m then g (i * ny + j) else 0 := by
  induction m with
  | zero => simp
  | succ m ih =>
    rw [forLoop_succ]
    rw [upd_apply']
    have hmq : m / ny < nx := by rw [Nat.div_lt_iff_lt_mul hny]; omega
    have hmr : m % ny < ny := Nat.mod_lt _ hny
    have hmd : m / ny * ny + m % ny = m := by rw [Nat.mul_comm]; exact Nat.div_add_mod _ _
    by_cases h : i * ny + j = m
    · have h1 : m % ny = j := by rw [← h, Nat.mul_comm, Nat.mul_add_mod, Nat.mod_eq_of_lt hj]
      have h2 : m / ny = i := by
        rw [← h, Nat.mul_comm, Nat.mul_add_div hny, Nat.div_eq_of_lt hj, Nat.add_zero]
      rw [h1, h2, if_pos rfl, if_pos (by omega), h]
    · have hne : ¬ (j * nx + i = m % ny * nx + m / ny) := by
        intro he
        have e1 : (j * nx + i) % nx = (m % ny * nx + m / ny) % nx := by rw [he]
        rw [Nat.mul_comm, Nat.mul_add_mod, Nat.mod_eq_of_lt hi, Nat.mul_comm, Nat.mul_add_mod,
          Nat.mod_eq_of_lt hmq] at e1
        have e2 : j * nx = m % ny * nx := by omega
        have e3 : j = m % ny := Nat.eq_of_mul_eq_mul_right (by omega) e2
        exact h (by rw [e1, e3, hmd])
      rw [if_neg hne, ih (by omega)]
      by_cases hlt : i * ny + j < m
      · rw [if_pos hlt, if_pos (by omega)]
      · rw [if_neg hlt, if_neg (by omega)]

theorem getElem?_flatMap3 {α : Type} (f0 f1 f2 : Nat → α) (n i c : Nat) (hi : i < n) (hc : c < 3) :
    ((List.range n).flatMap fun i => [f0 i, f1 i, f2 i])[3 * i + c]? =
      some (if c = 0 then f0 i else if c = 1 then f1 i else f2 i) := by
  have := flatMap_getElem? n 3 (fun i => [f0 i, f1 i, f2 i]) (by simp) i c hi hc
  rw [Nat.mul_comm 3 i, this]
  have : c = 0 ∨ c = 1 ∨ c = 2 := by omega
  rcases this with rfl | rfl | rfl <;> rfl

/-- C16: decoding the entry list of a patch without interior knots and with non-zero weights gives back
exactly this patch. -/
theorem C16_decode_partial (junk : Nat → K) (p : Patch K) (hp : BezierPatch p)
    (hw : ∀ i, i < p.px * p.py → p.data.getD (4 * i + 3) 0 ≠ 0) :
    loadPatchIGS junk (igsEntries p (makeBezierKnotVector p.px) (makeBezierKnotVector p.py)) = some p := by
  have hpx := hp.px1
  have hpy := hp.py1
  have kb : ∀ q, (makeBezierKnotVector q : List K) = datKnots q := fun q => by
    rw [datKnots_eq, ← makeBezier_eq]
  have kl : ∀ q, (datKnots q : List K).length = 2 * q := fun q => by rw [datKnots_eq]; simp; omega
  rw [kb, kb]
  have hsz : p.data.length / 4 = p.px * p.py := by rw [hp.hlen]; omega
  let hd : List (Tok K) := [.int 128, .int ((p.px : Int) - 1), .int ((p.py : Int) - 1), .int ((p.px : Int) - 1),
    .int ((p.py : Int) - 1), .int 0, .int 0, .int 0, .int 0, .int 0]
  let W : Nat → K := forLoop (p.px * p.py) (fun v i => upd v (i % p.py * p.px + i / p.py)
    (p.data.getD (i * 4 + 3) 0)) fun _ => 0
  let X : Nat → Nat → K := fun c => forLoop (p.px * p.py) (fun v i => upd v (i % p.py * p.px + i / p.py)
    (p.data.getD (i * 4 + c) 0 / p.data.getD (i * 4 + 3) 0)) fun _ => 0
  let body : List (Tok K) := (datKnots p.px : List K).map .real ++ ((datKnots p.py : List K).map .real ++
      ((List.range (p.px * p.py)).map (fun i => .real (W i)) ++
      ((List.range (p.px * p.py)).flatMap (fun i => [.real (X 0 i), .real (X 1 i), .real (X 2 i)]) ++
      [.real 0, .real 1, .real 0, .real 1, .int 0, .int 0])))
  have hent : igsEntries p (datKnots p.px) (datKnots p.py) = hd ++ body := by
    unfold igsEntries
    have t1 : 2 * p.px - p.px = p.px := by omega
    have t2 : 2 * p.py - p.py = p.py := by omega
    simp only [kl, hsz, t1, t2]
    simp [hd, body, W, X, two_mul]
  have hWv : ∀ i j, i < p.px → j < p.py → W (j * p.px + i) = p.data.getD (4 * (i * p.py + j) + 3) 0 := by
    intro i j hi hj
    have := reorder_apply p.px p.py hpy (fun i => p.data.getD (i * 4 + 3) 0) _ le_rfl i j hi hj
    have hlt : i * p.py + j < p.px * p.py := by
      calc i * p.py + j < i * p.py + p.py := by omega
        _ = (i + 1) * p.py := by ring
        _ ≤ p.px * p.py := Nat.mul_le_mul_right _ hi
    rw [if_pos hlt] at this
    rw [Nat.mul_comm 4]; exact this
  have hXv : ∀ c i j, i < p.px → j < p.py → X c (j * p.px + i) =
      p.data.getD (4 * (i * p.py + j) + c) 0 / p.data.getD (4 * (i * p.py + j) + 3) 0 := by
    intro c i j hi hj
    have := reorder_apply p.px p.py hpy (fun i => p.data.getD (i * 4 + c) 0 / p.data.getD (i * 4 + 3) 0)
      _ le_rfl i j hi hj
    have hlt : i * p.py + j < p.px * p.py := by
      calc i * p.py + j < i * p.py + p.py := by omega
        _ = (i + 1) * p.py := by ring
        _ ≤ p.px * p.py := Nat.mul_le_mul_right _ hi
    rw [if_pos hlt] at this
    rw [Nat.mul_comm 4]; exact this
  have hlen : (igsEntries p (datKnots p.px) (datKnots p.py)).length =
      16 + 4 * (p.px * p.py) + 2 * p.px + 2 * p.py := by
    rw [C16_entry_count, hsz, kl, kl]
  rw [hent] at hlen ⊢
  have i1 : entryInt (hd ++ body) 1 = some ((p.px : Int) - 1) := rfl
  have i2 : entryInt (hd ++ body) 2 = some ((p.py : Int) - 1) := rfl
  have i3 : entryInt (hd ++ body) 3 = some ((p.px : Int) - 1) := rfl
  have i4 : entryInt (hd ++ body) 4 = some ((p.py : Int) - 1) := rfl
  have hdrop : (hd ++ body).drop 10 = body := rfl
  -- the numbers after the first ten entries
  let wl : List K := (List.range (p.px * p.py)).map W
  let xl : List K := (List.range (p.px * p.py)).flatMap (fun i => [X 0 i, X 1 i, X 2 i])
  have hd' : body.map (fun t => atof (some t)) =
      (datKnots p.px : List K) ++ ((datKnots p.py : List K) ++ (wl ++ (xl ++ [0, 1, 0, 1, 0, 0]))) := by
    simp [body, wl, xl, atof, Function.comp_def, List.map_flatMap]
  have A1 : ((1 + ((p.px : Int) - 1) - ((p.px : Int) - 1)) + 2 * ((p.px : Int) - 1)).toNat = 2 * p.px - 1 := by
    omega
  have B1 : ((1 + ((p.py : Int) - 1) - ((p.py : Int) - 1)) + 2 * ((p.py : Int) - 1)).toNat = 2 * p.py - 1 := by
    omega
  have C1 : ((1 + ((p.px : Int) - 1)) * (1 + ((p.py : Int) - 1))).toNat = p.px * p.py := by
    have e1 : 1 + ((p.px : Int) - 1) = (p.px : Int) := by omega
    have e2 : 1 + ((p.py : Int) - 1) = (p.py : Int) := by omega
    rw [e1, e2, ← Nat.cast_mul, Int.toNat_natCast]
  have M1 : (((p.py : Int) - 1) + 1).toNat = p.py := by omega
  have N1 : (((p.px : Int) - 1) + 1).toNat = p.px := by omega
  unfold loadPatchIGS
  rw [i1, i2, i3, i4]
  simp only [Option.bind_eq_bind, Option.bind_some, A1, B1, C1, M1, N1, hdrop, hd']
  rw [if_neg (by rw [hlen]; omega)]
  have wlen : wl.length = p.px * p.py := by simp [wl]
  have xlen : xl.length = 3 * (p.px * p.py) := by simp [xl, List.length_flatMap]; omega
  have k1 : ((datKnots p.px : List K) ++ ((datKnots p.py : List K) ++ (wl ++ (xl ++ [0, 1, 0, 1, 0, 0])))).take
      (2 * p.px - 1 + 1) = datKnots p.px := by
    rw [List.take_append_of_le_length (by rw [kl]; omega), List.take_of_length_le (by rw [kl]; omega)]
  have k2 : (((datKnots p.px : List K) ++ ((datKnots p.py : List K) ++ (wl ++ (xl ++ [0, 1, 0, 1, 0, 0])))).drop
      (2 * p.px - 1 + 1)).take (2 * p.py - 1 + 1) = datKnots p.py := by
    have : 2 * p.px - 1 + 1 = (datKnots p.px : List K).length := by rw [kl]; omega
    rw [this, List.drop_left, List.take_append_of_le_length (by rw [kl]; omega),
      List.take_of_length_le (by rw [kl]; omega)]
  rw [k1, k2]
  -- element access
  have gW : ∀ n, n < p.px * p.py → ((datKnots p.px : List K) ++ ((datKnots p.py : List K) ++
      (wl ++ (xl ++ [0, 1, 0, 1, 0, 0])))).getD (2 * p.px - 1 + (2 * p.py - 1) + 2 + n) 0 = W n := by
    intro n hn
    rw [List.getD_eq_getElem?_getD, List.getElem?_append_right (by rw [kl]; omega),
      List.getElem?_append_right (by rw [kl, kl]; omega), List.getElem?_append_left (by rw [wlen, kl, kl]; omega),
      kl, kl, show 2 * p.px - 1 + (2 * p.py - 1) + 2 + n - 2 * p.px - 2 * p.py = n by omega]
    simp [wl, hn]
  have gX : ∀ n c, n < p.px * p.py → c < 3 → ((datKnots p.px : List K) ++ ((datKnots p.py : List K) ++
      (wl ++ (xl ++ [0, 1, 0, 1, 0, 0])))).getD
        (2 * p.px - 1 + (2 * p.py - 1) + p.px * p.py + 2 + (3 * n + c)) 0 = X c n := by
    intro n c hn hc
    rw [List.getD_eq_getElem?_getD, List.getElem?_append_right (by rw [kl]; omega),
      List.getElem?_append_right (by rw [kl, kl]; omega), List.getElem?_append_right (by rw [wlen, kl, kl]; omega),
      List.getElem?_append_left (by rw [xlen, wlen, kl, kl]; omega), kl, kl, wlen,
      show 2 * p.px - 1 + (2 * p.py - 1) + p.px * p.py + 2 + (3 * n + c) - 2 * p.px - 2 * p.py - p.px * p.py
        = 3 * n + c by omega, getElem?_flatMap3 _ _ _ _ _ _ hn hc]
    have : c = 0 ∨ c = 1 ∨ c = 2 := by omega
    rcases this with rfl | rfl | rfl <;> rfl
  apply initPatch_of_entries junk p hp
  · intro k _; rfl
  · intro k _; rfl
  · intro k hk i j hi hj
    have hn : j * p.px + i < p.px * p.py := by
      calc j * p.px + i < j * p.px + p.px := by omega
        _ = (j + 1) * p.px := by ring
        _ ≤ p.py * p.px := Nat.mul_le_mul_right _ hj
        _ = p.px * p.py := Nat.mul_comm _ _
    have hlt : i * p.py + j < p.px * p.py := by
      calc i * p.py + j < i * p.py + p.py := by omega
        _ = (i + 1) * p.py := by ring
        _ ≤ p.px * p.py := Nat.mul_le_mul_right _ hi
    simp only []
    by_cases h3 : k < 3
    · rw [if_pos h3, gW _ hn, gX _ _ hn h3, hWv _ _ hi hj, hXv _ _ _ hi hj]
      exact div_mul_cancel₀ _ (hw _ hlt)
    · have : k = 3 := by omega
      rw [if_neg h3, gW _ hn, hWv _ _ hi hj, this]

/-- File round trip for any per-patch entry list that decodes to the patch. -/
theorem sections_roundtrip (junk : Nat → K) (fmt : Tok K → List Char) (parse : List Char → Tok K)
    (tail : Nat → Nat → List Char) (E : Patch K → List (Tok K)) (ps : List (Patch K)) : ∀ (k : Nat),
    (∀ p ∈ ps, E p ≠ []) → (∀ p ∈ ps, loadPatchIGS junk (E p) = some p) →
    (∀ p ∈ ps, ∀ t ∈ E p,
      parse (fmt t) = t ∧ parse (fmt t ++ [';']) = t ∧ (fmt t).length + 1 ≤ 64 ∧ ',' ∉ fmt t ∧ ' ' ∉ fmt t) →
    loadIGS parse junk
      ((ps.map E).map fun e => (makeSection (e.map fmt) 64).length)
      ((List.range ps.length).flatMap fun i => writeParameterSection
        (((ps.map E).map fun e => makeSection (e.map fmt) 64).getD i []) (tail (k + i))) = some ps := by
  induction ps with
  | nil => intro k _ _ _; rfl
  | cons p qs ih =>
    intro k hne hdec hfmt
    rw [List.length_cons, List.range_succ_eq_map, List.flatMap_cons, List.flatMap_map]
    simp only [List.map_cons, List.getD_cons_zero, List.getD_cons_succ, Nat.add_zero]
    rw [loadIGS]
    have hene := hne p (by simp)
    have hd := hdec p (by simp)
    have hf := hfmt p (by simp)
    have hih := ih (k + 1) (fun p hp => hne p (by simp [hp])) (fun p hp => hdec p (by simp [hp]))
      (fun p hp => hfmt p (by simp [hp]))
    generalize E p = e at hene hd hf
    have hplen : ∀ (sec : List (List Char)) (t : Nat → List Char),
        (writeParameterSection sec t).length = sec.length := fun sec t => by simp [writeParameterSection]
    have hmne : e.map fmt ≠ [] := by simpa using hene
    have hread := C16_read_entries (e.map fmt) hmne (tail k) (fun s hs => by
      obtain ⟨t, ht, rfl⟩ := List.mem_map.1 hs
      exact (hf t ht).2.2)
    have hparse : ((e.map fmt).dropLast ++ [(e.map fmt).getLast hmne ++ [';']]).map parse = e := by
      rw [List.map_append, List.getLast_map]
      conv_rhs => rw [← List.dropLast_append_getLast hene]
      congr 1
      · rw [← List.map_dropLast, List.map_map]
        conv_rhs => rw [← List.map_id e.dropLast]
        apply List.map_congr_left
        intro t ht
        exact (hf t (List.dropLast_subset _ ht)).1
      · rw [List.map_singleton, (hf _ (List.getLast_mem hene)).2.1]
    have hwp := hplen (makeSection (e.map fmt) 64) (tail k)
    rw [if_neg (by rw [List.length_append, hwp]; omega)]
    have hdr : ∀ r : List (List Char), (writeParameterSection (makeSection (e.map fmt) 64) (tail k) ++ r).drop
        (makeSection (e.map fmt) 64).length = r := by
      intro r; rw [← hwp, List.drop_left]
    have htk : ∀ r : List (List Char), (writeParameterSection (makeSection (e.map fmt) 64) (tail k) ++ r).take
        (makeSection (e.map fmt) 64).length = writeParameterSection (makeSection (e.map fmt) 64) (tail k) := by
      intro r; rw [← hwp, List.take_left]
    rw [htk, hdr, hread, hparse, hd]
    have hcong : ∀ i, k + 1 + i = k + i.succ := by intro i; omega
    simp only [hcong] at hih
    rw [hih]
    rfl

/-- C16: the parameter section written for a list of patches (with the knot vectors a correct writer
produces) and read with the line counts of the directory gives back exactly the patches.  Number
formatting is a parameter: `parse` must invert `fmt` on the entries written (also in front of the record
delimiter), and the formatted entries must fit on a line and contain no comma or blank.
Missing for the full property: the code that builds the knot vectors, see `C16_write_violated`. -/
theorem C16_file_roundtrip_partial (junk : Nat → K) (fmt : Tok K → List Char) (parse : List Char → Tok K)
    (tail : Nat → Nat → List Char) (ps : List (Patch K)) (hps : ∀ p ∈ ps, BezierPatch p)
    (hw : ∀ p ∈ ps, ∀ i, i < p.px * p.py → p.data.getD (4 * i + 3) 0 ≠ 0)
    (hfmt : ∀ p ∈ ps, ∀ t ∈ igsEntries p (makeBezierKnotVector p.px) (makeBezierKnotVector p.py),
      parse (fmt t) = t ∧ parse (fmt t ++ [';']) = t ∧ (fmt t).length + 1 ≤ 64 ∧ ',' ∉ fmt t ∧ ' ' ∉ fmt t) :
    let file := writeIGSSections fmt tail
      (ps.map fun p => igsEntries p (makeBezierKnotVector p.px) (makeBezierKnotVector p.py))
    loadIGS parse junk file.1 file.2 = some ps := by
  intro file
  have := sections_roundtrip junk fmt parse tail
    (fun p => igsEntries p (makeBezierKnotVector p.px) (makeBezierKnotVector p.py)) ps 0
    (fun p _ h => by
      have := C16_entry_count p (makeBezierKnotVector p.px) (makeBezierKnotVector p.py)
      rw [h, List.length_nil] at this; omega)
    (fun p hp => C16_decode_partial junk p (hps p hp) (hw p hp)) hfmt
  simp only [Nat.zero_add] at this
  simp only [file, writeIGSSections, List.length_map, List.map_map, Function.comp_def] at this ⊢
  exact this

/-- C16 does not hold for the code as written: building the knot vectors of *any* patch writes one element
past the end of a vector (`i <= degree_x`), i.e. exporting a patch has undefined behaviour. -/
theorem C16_write_violated (p : Patch K) : writePatchData p = none := by
  have h : ∀ d : Nat, igsKnotsWrite d (d + 1) = (none : Option (List K)) := by
    intro d
    unfold igsKnotsWrite
    rw [forOpt_succ]
    have hnone : ∀ s : Nat → K, (if d + d < 2 * d then some (upd s (d + d) (1 : K)) else none) = none := by
      intro s; rw [if_neg (by omega)]
    simp only [hnone]
    cases forOpt d (fun (v : Nat → K) i => if d + i < 2 * d then some (upd v (d + i) (1 : K)) else none)
      (fun _ => 0) <;> rfl
  unfold writePatchData
  rw [h]
  simp

/-- … while with the loop bound `i < degree_x` the knot vectors are the Bezier knot vectors for which the
round trip above is proved. -/
theorem C16_write_repaired (d : Nat) : igsKnotsWrite d d = some (makeBezierKnotVector d : List K) := by
  have key : ∀ n, n ≤ d → ∃ v : Nat → K, forOpt n (fun (v : Nat → K) i =>
      if d + i < 2 * d then some (upd v (d + i) (1 : K)) else none) (fun _ => 0) = some v ∧
      ∀ i, v i = if d ≤ i ∧ i < d + n then 1 else 0 := by
    intro n
    induction n with
    | zero => intro _; exact ⟨_, rfl, fun i => by rw [if_neg (by omega)]⟩
    | succ n ih =>
      intro hn
      obtain ⟨v, h1, h2⟩ := ih (by omega)
      refine ⟨upd v (d + n) 1, by rw [forOpt_succ, h1, Option.bind_some, if_pos (by omega)], fun i => ?_⟩
      rw [upd_apply', h2]
      by_cases hi : i = d + n
      · rw [if_pos hi, if_pos (by omega)]
      · rw [if_neg hi]
        by_cases h3 : d ≤ i ∧ i < d + n
        · rw [if_pos h3, if_pos (by omega)]
        · rw [if_neg h3, if_neg (by omega)]
  obtain ⟨v, h1, h2⟩ := key d le_rfl
  unfold igsKnotsWrite
  rw [h1]
  simp only [Option.bind_eq_bind, Option.bind_some, Option.some.injEq]
  rw [makeBezier_eq]
  apply List.ext_getElem (by simp; omega)
  intro i h3 h4
  simp only [List.length_map, List.length_range] at h3
  rw [List.getElem_map, List.getElem_range, h2]
  by_cases hi : i < d
  · rw [if_neg (by omega), List.getElem_append_left (by simpa using hi)]; simp
  · rw [if_pos (by omega), List.getElem_append_right (by simpa using hi)]; simp

/-- Non-vacuity: a bilinear patch with weights one satisfies the hypotheses of the decoding theorem. -/
example : ∃ p : Patch ℚ, BezierPatch p ∧ (∀ i, i < p.px * p.py → p.data.getD (4 * i + 3) 0 ≠ 0) :=
  ⟨⟨[0, 0, 0, 1, 0, 1, 0, 1, 1, 0, 0, 1, 1, 1, 0, 1], 2, 2, [0, 1], [0, 1]⟩,
    ⟨rfl, rfl, by simp, by simp, rfl⟩, by
      intro i hi
      have : i = 0 ∨ i = 1 ∨ i = 2 ∨ i = 3 := by simp at hi; omega
      rcases this with rfl | rfl | rfl | rfl <;> simp⟩

section Example

deriving instance DecidableEq for Tok

/-- Example formatting for a bilinear patch: exactly the numbers that occur. -/
def exFmt : Tok ℚ → List Char
  | .int n => if n = 0 then "0".toList else if n = 1 then "1".toList else "128".toList
  | .real x => if x = 0 then "0.".toList else "1.".toList
  | .word _ => []

def exParse (s : List Char) : Tok ℚ :=
  let s := s.filter (· ≠ ';')
  if s = "0".toList then .int 0 else if s = "1".toList then .int 1 else if s = "128".toList then .int 128
  else if s = "0.".toList then .real 0 else .real 1

def exPatch : Patch ℚ := ⟨[0, 0, 0, 1, 0, 1, 0, 1, 1, 0, 0, 1, 1, 1, 0, 1], 2, 2, [0, 1], [0, 1]⟩

/-- Non-vacuity of the formatting hypotheses of the file round trip. -/
example : ∀ t ∈ igsEntries exPatch (makeBezierKnotVector exPatch.px) (makeBezierKnotVector exPatch.py),
    exParse (exFmt t) = t ∧ exParse (exFmt t ++ [';']) = t ∧ (exFmt t).length + 1 ≤ 64 ∧ ',' ∉ exFmt t ∧
      ' ' ∉ exFmt t := by
  decide +kernel

end Example

/-! ## C17 -/

theorem suffixFrom_noDot (s rest : List Char) (h : '.' ∉ s) : suffixFrom (s ++ '.' :: rest) = some rest := by
  induction s with
  | nil => simp [suffixFrom]
  | cons c s ih =>
    have hc : c ≠ '.' := by rintro rfl; simp at h
    rw [List.cons_append, suffixFrom, if_neg hc]
    exact ih (fun hh => h (by simp [hh]))

/-- C17 for names whose stem contains no dot: `.dat` and `.igs` select the right loader.  Missing: names with
further dots, see `C17_violated`. -/
theorem C17_suffix_partial (stem : List Char) (h : '.' ∉ stem) :
    fileType (stem ++ ".dat".toList) = some .dat ∧ fileType (stem ++ ".igs".toList) = some .igs := by
  have e1 : stem ++ ".dat".toList = stem ++ '.' :: "dat".toList := rfl
  have e2 : stem ++ ".igs".toList = stem ++ '.' :: "igs".toList := rfl
  unfold fileType
  rw [e1, e2, suffixFrom_noDot _ _ h, suffixFrom_noDot _ _ h]
  exact ⟨rfl, rfl⟩

example : '.' ∉ "geo/sphere".toList := by decide

/-- C17 fails for every file name with another dot before the suffix (for example `../geo/sphere.dat` or
`sphere.v2.dat`): no loader is selected. -/
theorem C17_violated (stem : List Char) (h : '.' ∈ stem) :
    fileType (stem ++ ".dat".toList) = none ∧ fileType (stem ++ ".igs".toList) = none := by
  obtain ⟨a, b, rfl, ha⟩ : ∃ a b, stem = a ++ '.' :: b ∧ '.' ∉ a := by
    induction stem with
    | nil => simp at h
    | cons c s ih =>
      by_cases hc : c = '.'
      · exact ⟨[], s, by simp [hc], by simp⟩
      · have hs : '.' ∈ s := by
          rcases List.mem_cons.1 h with h | h
          · exact absurd h.symm hc
          · exact h
        obtain ⟨a, b, h1, h2⟩ := ih hs
        refine ⟨c :: a, b, by rw [h1]; rfl, ?_⟩
        simp only [List.mem_cons, not_or]
        exact ⟨fun h => hc h.symm, h2⟩
  have key : ∀ t : List Char, '.' ∈ t → (suffixFrom (a ++ '.' :: b ++ t)).getD (a ++ '.' :: b ++ t) = b ++ t := by
    intro t _
    rw [List.append_assoc, List.cons_append, suffixFrom_noDot _ _ ha]; rfl
  have ne : ∀ (t s : List Char), '.' ∈ t → '.' ∉ s → b ++ t ≠ s := by
    rintro t s h1 h2 rfl
    simp [h1] at h2
  unfold fileType
  rw [key _ (by decide), key _ (by decide)]
  have d1 : '.' ∉ "dat".toList := by decide
  have d2 : '.' ∉ "igs".toList := by decide
  have d3 : '.' ∈ ".dat".toList := by decide
  have d4 : '.' ∈ ".igs".toList := by decide
  simp only [if_neg (ne _ _ d3 d1), if_neg (ne _ _ d3 d2), if_neg (ne _ _ d4 d1), if_neg (ne _ _ d4 d2), and_self]

example : '.' ∈ "../geo/sphere".toList := by decide

end Bembel.Props
