import Verif.Model.GeometryIO
import Verif.Lemmas.Patch
import Mathlib.Tactic.Ring

set_option linter.unusedSectionVars false

namespace Bembel
namespace Geo

open Basis Spl

variable {K : Type} [Field K] [LinearOrder K]

/-- tokens each followed by white space -/
def tl (ts : List (Tok K)) : Text K := ts.flatMap fun t => [.tok t, .ws]

@[simp] theorem tl_nil : tl ([] : List (Tok K)) = [] := rfl
@[simp] theorem tl_cons (t : Tok K) (ts : List (Tok K)) : tl (t :: ts) = .tok t :: .ws :: tl ts := rfl
theorem tl_append (a b : List (Tok K)) : tl (a ++ b) = tl a ++ tl b := by simp [tl]

theorem getline_tl (ts : List (Tok K)) (rest : Text K) :
    getline (tl ts ++ .eol :: rest) = some (tl ts, rest) := by
  induction ts with
  | nil => rfl
  | cons t ts ih => simp [getline, ih]

/-- remaining content is `ts` -/
def Rem (s : Stream K) (ts : List (Tok K)) : Prop := s.good = true ∧ skipWs s.items = tl ts

theorem skipWs_tl (ts : List (Tok K)) : skipWs (tl ts) = tl ts := by cases ts <;> rfl

theorem rem_str (s : Stream K) (ts : List (Tok K)) (h : s.good = true) : Rem (s.str (tl ts)) ts :=
  ⟨h, skipWs_tl ts⟩

theorem extract_cons (s : Stream K) (t : Tok K) (ts : List (Tok K)) (h : Rem s (t :: ts)) :
    s.extract = some (some t, ⟨.ws :: tl ts, true⟩) ∧ Rem (⟨.ws :: tl ts, true⟩ : Stream K) ts := by
  refine ⟨?_, rfl, skipWs_tl ts⟩
  unfold Stream.extract
  rw [h.1, h.2]
  rfl

theorem extract_nil (s : Stream K) (h : Rem s []) : s.extract = some (none, ⟨[], false⟩) := by
  unfold Stream.extract
  rw [h.1, h.2]
  rfl

theorem readReals_eq (ts : List (Tok K)) : ∀ (s : Stream K) (w : Option (Tok K)), Rem s ts →
    ∃ s' w', readReals ts.length (s, w) = some ((s', w'), ts.map fun t => atof (some t)) ∧
      s'.good = true := by
  -- generalise over the values already read
  suffices H : ∀ (ts : List (Tok K)) (pre : List (Tok K)) (s : Stream K) (w : Option (Tok K)),
      Rem s (pre ++ ts) → ∃ s' w', forOpt pre.length
        (fun (st : (Stream K × Option (Tok K)) × List K) _ => do
          let sw ← readWord st.1
          some (sw, st.2 ++ [atof sw.2])) ((s, w), []) =
        some ((s', w'), pre.map fun t => atof (some t)) ∧ Rem s' ts by
    intro s w h
    obtain ⟨s', w', h1, h2⟩ := H [] ts s w (by simpa using h)
    exact ⟨s', w', h1, h2.1⟩
  intro ts pre
  induction pre using List.reverseRecOn generalizing ts with
  | nil => intro s w h; exact ⟨s, w, rfl, by simpa using h⟩
  | append_singleton pre t ih =>
    intro s w h
    obtain ⟨s', w', h1, h2⟩ := ih (t :: ts) s w (by simpa using h)
    obtain ⟨e1, e2⟩ := extract_cons s' t ts h2
    refine ⟨_, some t, ?_, e2⟩
    rw [List.length_append, List.length_singleton, forOpt_succ, h1]
    simp [readWord, e1]

theorem readIntsWhile_eq (ns : List Int) : ∀ (fuel : Nat) (s : Stream K) (info : List Int),
    ns.length < fuel → Rem s (ns.map Tok.int) →
    readIntsWhile fuel s info = some (⟨[], false⟩, info ++ ns) := by
  induction ns with
  | nil =>
    intro fuel s info hf h
    obtain ⟨f, rfl⟩ : ∃ f, fuel = f + 1 := ⟨fuel - 1, by simp at hf; omega⟩
    rw [readIntsWhile, extract_nil s h]
    simp
  | cons n ns ih =>
    intro fuel s info hf h
    obtain ⟨f, rfl⟩ : ∃ f, fuel = f + 1 := ⟨fuel - 1, by simp at hf; omega⟩
    obtain ⟨e1, e2⟩ := extract_cons s _ _ h
    rw [readIntsWhile, e1]
    simp only [Option.bind_eq_bind, Option.bind_some, stoi]
    rw [ih f _ (info ++ [n]) (by simp at hf; omega) e2]
    simp

theorem writeKnots_eq (k : List K) (hk : k ≠ []) :
    writeKnots k = some (tl (k.map Tok.real) ++ [.eol]) := by
  unfold writeKnots
  have hpos : 0 < k.length := List.length_pos_of_ne_nil hk
  rw [if_neg (by omega)]
  have : ∀ n, n ≤ k.length → forLoop n (fun out i => out ++ [Item.tok (.real (k.getD i 0)), .ws])
      ([] : Text K) = tl ((k.take n).map Tok.real) := by
    intro n
    induction n with
    | zero => intro _; simp
    | succ n ih =>
      intro hn
      have hg : k.getD n 0 = k[n]'(by omega) := by
        rw [List.getD_eq_getElem?_getD, List.getElem?_eq_getElem (by omega)]; rfl
      rw [forLoop_succ, ih (by omega), List.take_succ, List.getElem?_eq_getElem (by omega), hg,
        Option.toList_some, List.map_append, tl_append]
      rfl
  rw [this _ (by omega)]
  congr 1
  have h2 : k = k.take (k.length - 1) ++ [k.getD (k.length - 1) 0] := by
    have e : k.take (k.length - 1 + 1) = k := by rw [Nat.sub_add_cancel hpos, List.take_length]
    conv_lhs => rw [← e]
    rw [List.take_succ, List.getElem?_eq_getElem (by omega)]
    simp [List.getElem?_eq_getElem (show k.length - 1 < k.length by omega)]
  conv_rhs => rw [h2]
  rw [List.map_append, tl_append]
  simp

/-- entries in the order in which they are written -/
def rowMajor (A : Mat K) (M N : Nat) : List K :=
  (List.range M).flatMap fun i => (List.range N).map fun j => A.entry i j

theorem rowMajor_length (A : Mat K) (M N : Nat) : (rowMajor A M N).length = M * N := by
  simp [rowMajor, List.length_flatMap]

theorem writeMatrix_eq (A : Mat K) (M N : Nat) (hM : 0 < M) (hN : 0 < N) :
    writeMatrix A M N = tl ((rowMajor A M N).map Tok.real) ++ [.eol] := by
  unfold writeMatrix
  -- inner loop for a row
  have inner : ∀ (i n : Nat) (out : Text K), i < M → n ≤ N →
      forLoop n (fun out j =>
        let out := out ++ [Item.tok (.real (A.entry i j))]
        if N * i + j + 1 = M * N then out ++ [.ws, .eol] else out ++ [.ws]) out =
      out ++ tl (((List.range n).map fun j => A.entry i j).map Tok.real) ++
        (if i + 1 = M ∧ n = N then [.eol] else []) := by
    intro i n
    induction n with
    | zero => intro out _ _; rw [if_neg (by omega)]; simp
    | succ n ih =>
      intro out hi hn
      have hcond : N * i + n + 1 = M * N ↔ i + 1 = M ∧ n + 1 = N := by
        constructor
        · intro h
          have h1 : i + 1 = M := by
            by_contra hne
            have : (i + 2) * N ≤ M * N := Nat.mul_le_mul_right _ (by omega)
            have e : (i + 2) * N = N * i + 2 * N := by ring
            omega
          subst h1
          have e : (i + 1) * N = N * i + N := by ring
          exact ⟨rfl, by omega⟩
        · rintro ⟨rfl, rfl⟩; ring
      rw [forLoop_succ, ih out hi (by omega)]
      simp only []
      rw [if_neg (show ¬ (i + 1 = M ∧ n = N) by omega), List.range_succ]
      by_cases hc : i + 1 = M ∧ n + 1 = N
      · rw [if_pos (hcond.2 hc), if_pos hc]; simp [tl_append]
      · rw [if_neg (fun h => hc (hcond.1 h)), if_neg hc]; simp [tl_append]
  have outer : ∀ m, m ≤ M → forLoop m (fun out i => forLoop N (fun out j =>
        let out := out ++ [Item.tok (.real (A.entry i j))]
        if N * i + j + 1 = M * N then out ++ [.ws, .eol] else out ++ [.ws]) out) [] =
      tl ((rowMajor A m N).map Tok.real) ++ (if m = M then [.eol] else []) := by
    intro m
    induction m with
    | zero => intro _; rw [if_neg (by omega)]; simp [rowMajor]
    | succ m ih =>
      intro hm
      rw [forLoop_succ, ih (by omega), inner m N _ (by omega) le_rfl, if_neg (show ¬ m = M by omega)]
      simp only [List.append_nil, and_true]
      congr 1
      unfold rowMajor
      rw [List.range_succ, List.flatMap_append, List.flatMap_singleton, List.map_append, tl_append]
  rw [outer M le_rfl, if_pos rfl]

theorem datKnots_eq (p : Nat) : (datKnots p : List K) = List.replicate p 0 ++ List.replicate p 1 := by
  have h : ∀ n i, forLoop n (fun v i => upd v i (0 : K)) (fun _ => 1) i = if i < n then 0 else 1 := by
    intro n
    induction n with
    | zero => intro i; simp
    | succ n ih =>
      intro i
      rw [forLoop_succ]
      unfold upd
      by_cases h : i = n
      · subst h; simp
      · rw [if_neg h]
        have := ih i
        unfold upd at this
        rw [this]
        by_cases h2 : i < n
        · rw [if_pos h2, if_pos (by omega)]
        · rw [if_neg h2, if_neg (by omega)]
  unfold datKnots
  apply List.ext_getElem?
  intro i
  rcases Nat.lt_or_ge i p with hi | hi
  · rw [List.getElem?_map, List.getElem?_range (by omega), List.getElem?_append_left (by simpa using hi),
      List.getElem?_replicate, if_pos hi]
    simp [h, hi]
  · rw [List.getElem?_append_right (by simpa using hi), List.getElem?_replicate]
    rcases Nat.lt_or_ge i (2 * p) with h2 | h2
    · rw [List.getElem?_map, List.getElem?_range h2]
      simp [h, show ¬ i < p by omega, show i - p < p by omega]
    · rw [List.getElem?_eq_none (by simpa using h2)]
      simp; omega

theorem datMatrix_eq (p : Patch K) (c : Nat) (hc : c < 4) (hy : 0 < p.py)
    (hlen : p.data.length = 4 * (p.px * p.py)) :
    ∃ A, datMatrix p c = some A ∧ A.rows = p.py ∧ A.cols = p.px ∧
      ∀ i j, i < p.px → j < p.py → A.entry j i = p.data.getD (4 * (i * p.py + j) + c) 0 := by
  unfold datMatrix
  have e1 : 2 * p.px - p.px = p.px := by omega
  have e2 : 2 * p.py - p.py = p.py := by omega
  rw [e1, e2]
  have key : ∀ m, m ≤ p.px * p.py → ∃ e, forOpt m (fun (e : Nat → Nat → K) i => do
      let v ← p.data[4 * i + c]?
      some (upd2 e (i % p.py) (i / p.py) v)) (fun _ _ => 0) = some e ∧
      ∀ i, i < m → e (i % p.py) (i / p.py) = p.data.getD (4 * i + c) 0 := by
    intro m
    induction m with
    | zero => intro _; exact ⟨_, rfl, fun i hi => by omega⟩
    | succ m ih =>
      intro hm
      obtain ⟨e, h1, h2⟩ := ih (by omega)
      have hg : p.data[4 * m + c]? = some (p.data.getD (4 * m + c) 0) := by
        rw [List.getD_eq_getElem?_getD, List.getElem?_eq_getElem (by omega)]; rfl
      refine ⟨upd2 e (m % p.py) (m / p.py) (p.data.getD (4 * m + c) 0), ?_, ?_⟩
      · rw [forOpt_succ, h1]
        simp only [Option.bind_some, hg, Option.bind_eq_bind]
      · intro i hi
        unfold upd2
        by_cases h : i % p.py = m % p.py ∧ i / p.py = m / p.py
        · have : i = m := by
            rw [← Nat.div_add_mod i p.py, ← Nat.div_add_mod m p.py, h.1, h.2]
          rw [if_pos h, this]
        · rw [if_neg h]
          refine h2 i ?_
          rcases Nat.lt_succ_iff_lt_or_eq.1 hi with h' | h'
          · exact h'
          · subst h'; exact absurd ⟨rfl, rfl⟩ h
  obtain ⟨e, h1, h2⟩ := key _ le_rfl
  refine ⟨⟨p.py, p.px, e⟩, ?_, rfl, rfl, ?_⟩
  · simp only []; rw [h1]; rfl
  · intro i j hi hj
    have hlt : i * p.py + j < p.px * p.py := by
      calc i * p.py + j < i * p.py + p.py := by omega
        _ = (i + 1) * p.py := by ring
        _ ≤ _ := Nat.mul_le_mul_right _ hi
    have := h2 (i * p.py + j) hlt
    rw [Nat.add_comm (i * p.py) j, Nat.add_mul_mod_self_right, Nat.mod_eq_of_lt hj,
      Nat.add_mul_div_right _ _ hy, Nat.div_eq_of_lt hj, Nat.zero_add] at this
    simp only []
    rw [this, Nat.add_comm j]

end Geo
end Bembel
