import Verif.Props.H2
import Verif.Props.H2Init
import Verif.Spec.H2Expression
/-!
# Property C68: products with expressions of H2-matrices
-/

namespace Bembel.Props

open Finset Bembel.Mesh Bembel.Util Bembel.BlockCluster Bembel.H2 Bembel.SuperSpace

variable {K R : Type} [Field K] [CharZero K] [CommRing R] {E : Type} [NormedAddCommGroup E] {V : Type} (near : V → V → Bool)
  (corner : Nat → Nat → V)

theorem denotes_rows {n : Nat} {e : Expr K R} {X : Nat → Nat → R} (h : Denotes near corner E n e X) : e.rows = n := by
  induction h with
  | mat _ H _ _ _ _ _ _ _ _ _ _ hn => exact hn
  | sum _ _ ih _ => exact ih
  | diff _ _ ih _ => exact ih
  | scale _ _ ih => exact ih

/-- C68: `dst += alpha * e * rhs` for a linear expression `e` of H2-matrices (sums, differences, multiples, nested arbitrarily) computes the product
with the matrix denoted by `e`, for all schedules of all threads and all contents of fresh memory. -/
theorem C68_expression {n : Nat} {e : Expr K R} {X : Nat → Nat → R} (h : Denotes near corner E n e X) : ∀ (rhs dst : EMat R) (alpha : R),
    rhs.rows = n → dst.rows = n → dst.cols = rhs.cols →
    ∃ res, scaleAndAddTo e rhs dst alpha = some res ∧ res.rows = n ∧ res.cols = rhs.cols ∧
      ∀ i < n, ∀ c < rhs.cols, res.at' i c = dst.at' i c + alpha * ∑ d ∈ range n, X i d * rhs.at' d c := by
  induction h with
  | mat hP H S junk ht B eta np nc hw A hA hn =>
    intro rhs dst alpha h1 h2 h3
    obtain ⟨-, -, h⟩ := C39_product near corner _ _ hP H ht B eta np nc hw
    obtain ⟨res, e1, e2, e3, e4⟩ := h A hA junk S rhs dst alpha (by omega) (by omega) h3
    refine ⟨res, e1, by omega, by omega, fun i hi c hc => ?_⟩
    rw [e4 i (by omega) c (by omega), hn]
    congr 2
    simp only [sum_mul]
    conv_rhs => rw [sum_comm]
    refine sum_congr rfl fun r _ => ?_
    conv_rhs => rw [sum_comm]
  | @sum a b X Y ha hb iha ihb =>
    intro rhs dst alpha h1 h2 h3
    have ra := denotes_rows near corner ha
    have rb := denotes_rows near corner hb
    obtain ⟨l, l1, l2, l3, l4⟩ := iha rhs ⟨a.rows, rhs.cols, fun _ _ => 0⟩ 1 h1 ra rfl
    obtain ⟨r, r1, r2, r3, r4⟩ := ihb rhs ⟨b.rows, rhs.cols, fun _ _ => 0⟩ 1 h1 rb rfl
    refine ⟨⟨dst.rows, dst.cols, fun i j => dst.at' i j + alpha * (l.at' i j + r.at' i j)⟩, ?_, h2, h3, fun i hi c hc => ?_⟩
    · rw [scaleAndAddTo, l1, r1]
      simp only [Option.bind_eq_bind, Option.bind_some]
      rw [if_pos ⟨by omega, by omega, by omega, by omega⟩]
    · simp only [l4 i hi c hc, r4 i hi c hc, add_mul, sum_add_distrib]
      ring
  | @diff a b X Y ha hb iha ihb =>
    intro rhs dst alpha h1 h2 h3
    have ra := denotes_rows near corner ha
    have rb := denotes_rows near corner hb
    obtain ⟨l, l1, l2, l3, l4⟩ := iha rhs ⟨a.rows, rhs.cols, fun _ _ => 0⟩ 1 h1 ra rfl
    obtain ⟨r, r1, r2, r3, r4⟩ := ihb rhs ⟨b.rows, rhs.cols, fun _ _ => 0⟩ 1 h1 rb rfl
    refine ⟨⟨dst.rows, dst.cols, fun i j => dst.at' i j + alpha * (l.at' i j - r.at' i j)⟩, ?_, h2, h3, fun i hi c hc => ?_⟩
    · rw [scaleAndAddTo, l1, r1]
      simp only [Option.bind_eq_bind, Option.bind_some]
      rw [if_pos ⟨by omega, by omega, by omega, by omega⟩]
    · simp only [l4 i hi c hc, r4 i hi c hc, sub_mul, sum_sub_distrib]
      ring
  | @scale a X beta ha ih =>
    intro rhs dst alpha h1 h2 h3
    obtain ⟨l, l1, l2, l3, l4⟩ := ih rhs dst (alpha * beta) h1 h2 h3
    refine ⟨l, l1, l2, l3, fun i hi c hc => ?_⟩
    rw [l4 i hi c hc, mul_assoc, mul_sum]
    simp only [mul_assoc]

/-- C68: `e * rhs`. -/
theorem C68_product {n : Nat} {e : Expr K R} {X : Nat → Nat → R} (h : Denotes near corner E n e X) (rhs : EMat R) (hr : rhs.rows = n) :
    ∃ res, product e rhs = some res ∧ res.rows = n ∧ res.cols = rhs.cols ∧
      ∀ i < n, ∀ c < rhs.cols, res.at' i c = ∑ d ∈ range n, X i d * rhs.at' d c := by
  obtain ⟨res, h1, h2, h3, h4⟩ := C68_expression near corner h rhs ⟨e.rows, rhs.cols, fun _ _ => 0⟩ 1 hr (denotes_rows near corner h) rfl
  refine ⟨res, h1, h2, h3, fun i hi c hc => ?_⟩
  rw [h4 i hi c hc, zero_add, one_mul]

/-- C68: distributivity and associativity, as equations of results: products with `A + B`, `A - B`, `beta * A` are the sums, differences and multiples of
the products. -/
theorem C68_linear {n : Nat} {a b : Expr K R} {X Y : Nat → Nat → R} (ha : Denotes near corner E n a X) (hb : Denotes near corner E n b Y) (beta : R)
    (rhs : EMat R) (hr : rhs.rows = n) :
    ∃ l r s d m, product a rhs = some l ∧ product b rhs = some r ∧ product (.sum a b) rhs = some s ∧ product (.diff a b) rhs = some d ∧
      product (.scale beta a) rhs = some m ∧ ∀ i < n, ∀ c < rhs.cols, s.at' i c = l.at' i c + r.at' i c ∧ d.at' i c = l.at' i c - r.at' i c ∧
        m.at' i c = beta * l.at' i c := by
  obtain ⟨l, l1, -, -, l4⟩ := C68_product near corner ha rhs hr
  obtain ⟨r, r1, -, -, r4⟩ := C68_product near corner hb rhs hr
  obtain ⟨s, s1, -, -, s4⟩ := C68_product near corner (ha.sum hb) rhs hr
  obtain ⟨d, d1, -, -, d4⟩ := C68_product near corner (ha.diff hb) rhs hr
  obtain ⟨m, m1, -, -, m4⟩ := C68_product near corner (ha.scale beta) rhs hr
  refine ⟨l, r, s, d, m, l1, r1, s1, d1, m1, fun i hi c hc => ⟨?_, ?_, ?_⟩⟩
  · rw [s4 i hi c hc, l4 i hi c hc, r4 i hi c hc, ← sum_add_distrib]
    exact sum_congr rfl fun _ _ => add_mul _ _ _
  · rw [d4 i hi c hc, l4 i hi c hc, r4 i hi c hc, ← sum_sub_distrib]
    exact sum_congr rfl fun _ _ => sub_mul _ _ _
  · rw [m4 i hi c hc, l4 i hi c hc, mul_sum]
    exact sum_congr rfl fun _ _ => mul_assoc _ _ _

/-- C68: `get_dense` returns the represented matrix `Tᵀ A T`, whatever the schedules and the memory. -/
theorem C68_dense {P M : Nat} (hP : 0 < P) (H : Mat K R) (ht : initElementTree near corner P M = some H.t)
    (B : Addr → Ball E) (eta : ℝ) (np nc : Nat) (hw : WellFormed H B eta np nc) (A : Nat → Nat → R) (hA : Represents H np A)
    (S : Nat → Schedules H) (mem : Nat → Nat → Nat → R) (junk : Nat → Nat → R) :
    ∃ D, getDense H S mem junk = some D ∧ D.rows = H.trans.cols ∧ D.cols = H.trans.cols ∧ ∀ i < H.trans.cols, ∀ j < H.trans.cols,
      D.at' i j = ∑ r ∈ range H.trans.rows, ∑ k ∈ range H.trans.rows, H.trans.at' r i * A r k * H.trans.at' k j := by
  set X := fun i d => ∑ r ∈ range H.trans.rows, ∑ k ∈ range H.trans.rows, H.trans.at' r i * A r k * H.trans.at' k d with hX
  have hp : ∀ i < H.trans.cols, ∃ v, product (.mat H (S i) (mem i)) ⟨H.trans.cols, 1, fun k _ => if k = i then 1 else 0⟩ = some v ∧
      v.rows = H.trans.cols ∧ v.cols = 1 ∧ ∀ r < H.trans.cols, v.at' r 0 = X r i := by
    intro i hi
    obtain ⟨v, v1, v2, v3, v4⟩ := C68_product near corner (Denotes.mat (E := E) hP H (S i) (mem i) ht B eta np nc hw A hA rfl)
      ⟨H.trans.cols, 1, fun k _ => if k = i then 1 else 0⟩ rfl
    refine ⟨v, v1, v2, v3, fun r hr => ?_⟩
    rw [v4 r hr 0 (by simp)]
    simp [hX, hi]
  have ind : ∀ m ≤ H.trans.cols, ∃ D : EMat R, (List.range m).foldlM (fun (dense : EMat R) i => do
      let v ← product (.mat H (S i) (mem i)) ⟨H.trans.cols, 1, fun k _ => if k = i then 1 else 0⟩
      dense.setBlock 0 i H.trans.cols 1 v) ⟨H.trans.cols, H.trans.cols, junk⟩ = some D ∧ D.rows = H.trans.cols ∧ D.cols = H.trans.cols ∧
      ∀ i < H.trans.cols, ∀ j < m, D.at' i j = X i j := by
    intro m
    induction m with
    | zero => intro _; exact ⟨_, rfl, rfl, rfl, fun _ _ _ h => absurd h (by omega)⟩
    | succ m ih =>
      intro hm
      obtain ⟨D, e1, e2, e3, e4⟩ := ih (by omega)
      obtain ⟨v, v1, v2, v3, v4⟩ := hp m (by omega)
      rw [List.range_succ, List.foldlM_append, e1]
      simp only [Option.bind_eq_bind, Option.bind_some, List.foldlM_cons, List.foldlM_nil, v1, Option.pure_def]
      refine ⟨⟨D.rows, D.cols, fun a b => if (0 ≤ a ∧ a < 0 + H.trans.cols) ∧ (m ≤ b ∧ b < m + 1) then v.at' (a - 0) (b - m) else D.at' a b⟩, ?_, e2, e3, ?_⟩
      · unfold EMat.setBlock
        rw [if_pos ⟨by omega, by omega, v2, v3⟩]
        rfl
      · intro i hi j hj
        simp only
        by_cases h : j = m
        · subst h
          rw [if_pos ⟨⟨by omega, by omega⟩, by omega, by omega⟩, Nat.sub_self, Nat.sub_zero, v4 i hi]
        · rw [if_neg (by omega), e4 i hi j (by omega)]
  exact ind _ le_rfl

/-- The expression `2 * A - B` of two assembled H2-matrices (same mesh of two balls, different element matrices) denotes a matrix; all
schedules are allowed. -/
example (n p : Nat) (hn : 0 < n) (surf : Addr → ℝ × ℝ → ℝ → SurfPt) (v v' : Addr → Addr → Nat → Nat → ℝ) (Q : Quad1 ℝ) :
    ∃ H H' : Mat ℝ ℝ, ∀ (S : Schedules H) (S' : Schedules H'), ∃ X,
      Denotes (fun a b : Nat => a == b) (fun p i => 4 * p + i) ℝ 3 (.diff (.scale 2 (.mat H S fun _ _ => 0)) (.mat H' S' fun _ _ => 7)) X := by
  obtain ⟨t, h1, -, h2⟩ := two_balls n p hn surf v Q
  obtain ⟨t', h1', -, h2'⟩ := two_balls n p hn surf v' Q
  obtain rfl : t = t' := Option.some.inj (h1.symm.trans h1')
  obtain ⟨H, -, e1, e2, e3⟩ := h2 _ (List.Perm.refl _)
  obtain ⟨H', -, e1', e2', e3'⟩ := h2' _ (List.Perm.refl _)
  have ht : initElementTree (fun a b : Nat => a == b) (fun p i => 4 * p + i) 2 1 = some H.t := by rw [e2]; exact h1
  have ht' : initElementTree (fun a b : Nat => a == b) (fun p i => 4 * p + i) 2 1 = some H'.t := by rw [e2']; exact h1
  obtain ⟨⟨A, hA⟩, -⟩ := C39_product _ _ 2 1 (by omega) H ht _ _ _ _ e1
  obtain ⟨⟨A', hA'⟩, -⟩ := C39_product _ _ 2 1 (by omega) H' ht' _ _ _ _ e1'
  refine ⟨H, H', fun S S' => ⟨_, .diff (.scale 2 (.mat (by omega) H S _ ht _ _ _ _ e1 A hA e3)) (.mat (by omega) H' S' _ ht' _ _ _ _ e1' A' hA' e3')⟩⟩

end Bembel.Props
