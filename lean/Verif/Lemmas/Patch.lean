import Verif.Model.Patch
import Verif.Spec.Surface
import Verif.Lemmas.Knots
import Mathlib.Algebra.BigOperators.Ring.Finset
import Mathlib.Tactic.Ring
import Mathlib.Tactic.FieldSimp
import Mathlib.Tactic.Linarith
import Mathlib.Tactic.Positivity

set_option linter.unusedSectionVars false

open Finset

namespace Bembel

theorem forOpt_zero {σ : Type} (body : σ → Nat → Option σ) (s : σ) : forOpt 0 body s = some s := rfl

theorem forOpt_succ {σ : Type} (n : Nat) (body : σ → Nat → Option σ) (s : σ) :
    forOpt (n + 1) body s = (forOpt n body s).bind fun s => body s n := by
  simp only [forOpt, List.range_succ, List.foldlM_append]
  cases h : List.foldlM body s (List.range n) with
  | none => rfl
  | some t => simp

/-- loop rule: state after `i` steps is `f i` -/
theorem forOpt_inv {σ : Type} (n : Nat) (body : σ → Nat → Option σ) (f : Nat → σ)
    (h : ∀ i, i < n → body (f i) i = some (f (i + 1))) : forOpt n body (f 0) = some (f n) := by
  induction n with
  | zero => rfl
  | succ n ih =>
    rw [forOpt_succ, ih (fun i hi => h i (by omega))]
    exact h n (by omega)

theorem forOpt_some {σ : Type} (n : Nat) (body : σ → Nat → Option σ) (g : σ → Nat → σ) (s : σ)
    (h : ∀ i, i < n → ∀ s, body s i = some (g s i)) :
    forOpt n body s = some (Basis.forLoop n g s) := by
  induction n with
  | zero => rfl
  | succ n ih =>
    rw [forOpt_succ, ih (fun i hi => h i (by omega)), Basis.forLoop_succ]
    exact h n (by omega) _

/-- filling a row-major table -/
theorem fill_apply {α : Type} (I m : Nat) (hI : 0 < I) (g : Nat → Nat → α) (c : Nat → α) (i : Nat) :
    Basis.forLoop m (fun c iy =>
      Basis.forLoop I (fun c ix => upd c (iy * I + ix) (g iy ix)) c) c i =
      if i < m * I then g (i / I) (i % I) else c i := by
  have inner : ∀ (n : Nat) (v : Nat → α) (c : Nat → α) (off i : Nat),
      Basis.forLoop n (fun c k => upd c (off + k) (v k)) c i =
      if off ≤ i ∧ i < off + n then v (i - off) else c i := by
    intro n
    induction n with
    | zero => intro v c off i; rw [Basis.forLoop_zero, if_neg (by omega)]
    | succ n ih =>
      intro v c off i
      rw [Basis.forLoop_succ]
      unfold upd
      by_cases h : i = off + n
      · subst h; rw [if_pos rfl, if_pos (by omega)]; congr 1; omega
      · rw [if_neg h]
        have := ih v c off i
        unfold upd at this
        rw [this]
        by_cases h2 : off ≤ i ∧ i < off + n
        · rw [if_pos h2, if_pos (by omega)]
        · rw [if_neg h2, if_neg (by omega)]
  induction m with
  | zero => simp
  | succ m ih =>
    rw [Basis.forLoop_succ, inner]
    by_cases h : m * I ≤ i ∧ i < m * I + I
    · rw [if_pos h, if_pos (by rw [Nat.add_mul]; omega)]
      have hd : i / I = m := (Basis.divmod_block hI).1 h
      have hm : i - m * I = i % I := by rw [← hd]; exact Basis.block_aux
      rw [hd, hm]
    · rw [if_neg h, ih]
      by_cases h2 : i < m * I
      · rw [if_pos h2, if_pos (by rw [Nat.add_mul]; omega)]
      · rw [if_neg h2, if_neg (by rw [Nat.add_mul, one_mul]; omega)]

namespace Geo

open Basis Spl

variable {K : Type} [Field K] [LinearOrder K]

theorem unroll_eq (junk : Nat → K) (M : Mat K) :
    unroll junk M =
      (List.range (M.cols * M.rows)).map fun n => M.entry (n % M.rows) (n / M.rows) := by
  unfold unroll
  apply List.map_congr_left
  intro n hn
  rw [List.mem_range] at hn
  have hpos : 0 < M.rows := by
    rcases Nat.eq_zero_or_pos M.rows with h | h
    · rw [h] at hn; omega
    · exact h
  have := fill_apply M.rows M.cols hpos (fun i j => M.entry j i) junk n
  rw [this, if_pos hn]

theorem unroll_length (junk : Nat → K) (M : Mat K) : (unroll junk M).length = M.cols * M.rows := by
  rw [unroll_eq]; simp

theorem unroll_getElem? (junk : Nat → K) (M : Mat K) (i j : Nat) (hi : i < M.cols) (hj : j < M.rows) :
    (unroll junk M)[i * M.rows + j]? = some (M.entry j i) := by
  have hlt : i * M.rows + j < M.cols * M.rows := by
    calc i * M.rows + j < i * M.rows + M.rows := by omega
      _ = (i + 1) * M.rows := by ring
      _ ≤ M.cols * M.rows := Nat.mul_le_mul_right _ hi
  rw [unroll_eq, List.getElem?_map, List.getElem?_range hlt, Option.map_some]
  congr 1
  have e1 : (i * M.rows + j) % M.rows = j := by
    rw [Nat.add_comm, Nat.add_mul_mod_self_right, Nat.mod_eq_of_lt hj]
  have e2 : (i * M.rows + j) / M.rows = i := by
    rw [Nat.add_comm, Nat.add_mul_div_right _ _ (by omega), Nat.div_eq_of_lt hj, Nat.zero_add]
  rw [e1, e2]

theorem scatter_eq (size i : Nat) (tmp : List K) (data : Nat → K)
    (h : ∀ j, j < tmp.length → j * 4 + i < size) :
    ∃ d, scatter size i tmp data = some d ∧
      ∀ n, d n = if n % 4 = i % 4 ∧ i ≤ n ∧ (n - i) / 4 < tmp.length then tmp.getD ((n - i) / 4) 0
        else data n := by
  unfold scatter
  have key : ∀ m, m ≤ tmp.length → ∃ d, forOpt m (fun data j => do
      let v ← tmp[j]?
      if j * 4 + i < size then some (upd data (j * 4 + i) v) else none) data = some d ∧
      ∀ n, d n = if n % 4 = i % 4 ∧ i ≤ n ∧ (n - i) / 4 < m then tmp.getD ((n - i) / 4) 0
        else data n := by
    intro m
    induction m with
    | zero => intro _; exact ⟨data, rfl, fun n => by rw [if_neg (by omega)]⟩
    | succ m ih =>
      intro hm
      obtain ⟨d, h1, h2⟩ := ih (by omega)
      refine ⟨upd d (m * 4 + i) (tmp.getD m 0), ?_, ?_⟩
      · rw [forOpt_succ, h1]
        have hg : tmp[m]? = some (tmp.getD m 0) := by
          rw [List.getD_eq_getElem?_getD, List.getElem?_eq_getElem (by omega)]; simp
        simp only [Option.bind_some, hg, Option.bind_eq_bind]
        rw [if_pos (h m (by omega))]
      · intro n
        unfold upd
        by_cases hn : n = m * 4 + i
        · subst hn
          rw [if_pos rfl, if_pos (by omega)]
          congr 1; omega
        · rw [if_neg hn, h2]
          by_cases hc : n % 4 = i % 4 ∧ i ≤ n ∧ (n - i) / 4 < m
          · rw [if_pos hc, if_pos (by omega)]
          · rw [if_neg hc, if_neg (by omega)]
  exact key tmp.length le_rfl

/-- The accumulated tensor-product sum. -/
theorem sumTP_eq (data : List K) (P : Nat → Nat → Fin 4 → K) (numy px py xl yl : Nat) (X Y : Nat → K)
    (h : ∀ i j, i < px → j < py →
      read4 data (4 * (numy * (px * xl + i) + py * yl + j)) = some (P i j)) :
    sumTP data numy px py xl yl X Y =
      some fun k => ∑ i ∈ range px, ∑ j ∈ range py, P i j k * (X i * Y j) := by
  unfold sumTP
  have := forOpt_inv px (fun tmp i =>
    forOpt py (fun (tmp : Fin 4 → K) j => do
      let tpbasisval := X i * Y j
      let accs := 4 * (numy * (px * xl + i) + py * yl + j)
      let d ← read4 data accs
      some fun k => tmp k + d k * tpbasisval) tmp)
    (fun m k => ∑ i ∈ range m, ∑ j ∈ range py, P i j k * (X i * Y j)) (by
      intro i hi
      have h2 := forOpt_inv py (fun (tmp : Fin 4 → K) j => do
        let tpbasisval := X i * Y j
        let accs := 4 * (numy * (px * xl + i) + py * yl + j)
        let d ← read4 data accs
        some fun k => tmp k + d k * tpbasisval)
        (fun m k => (∑ i ∈ range i, ∑ j ∈ range py, P i j k * (X i * Y j)) +
          ∑ j ∈ range m, P i j k * (X i * Y j)) (by
        intro j hj
        simp only [h i j hi hj, Option.bind_eq_bind, Option.bind_some]
        congr 1
        funext k
        rw [Finset.sum_range_succ, add_assoc])
      simp only [Finset.sum_range_zero, add_zero] at h2
      rw [h2]
      congr 1
      funext k
      rw [Finset.sum_range_succ])
  simpa using this

end Geo
end Bembel
