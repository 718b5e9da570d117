import Verif.Model.BinaryIO
import Mathlib.Tactic.Ring
/-!
# Property theorems C56: binary matrix files
-/

namespace Bembel.Props
open BinIO

variable {α β : Type}

/-- Specification: a value can be recovered from its object representation, which has `sizeof` bytes; `sizeof` is positive and
fits into an `int`. -/
def Lawful (c : Codec α) : Prop := (∀ a, (c.enc a).length = c.size ∧ c.dec (c.enc a) = a) ∧ 0 < c.size ∧ c.size < 2147483648

theorem encInt_length (i : Int) : (encInt i).length = 4 := rfl

theorem decInt_encInt (i : Int) (h1 : -2147483648 ≤ i) (h2 : i < 2147483648) : decInt (encInt i) = i := by
  unfold decInt encInt
  simp only [List.foldr_cons, List.foldr_nil, UInt8.toNat_ofNat']
  obtain ⟨n, hn⟩ : ∃ n : Nat, i % 4294967296 = n := ⟨(i % 4294967296).toNat, by omega⟩
  rw [hn]
  simp only [Int.toNat_natCast]
  split <;> omega

theorem intMul_ok (a b : Nat) (h : a * b < 2147483648) : intMul a b = some ((a * b : Nat) : Int) := by
  unfold intMul
  have e : (a : Int) * b = ((a * b : Nat) : Int) := by push_cast; rfl
  rw [e]
  exact if_pos ⟨by omega, by omega⟩

theorem intMul_overflow (a b : Nat) (h : 2147483648 ≤ a * b) : intMul a b = none := by
  unfold intMul
  have e : (a : Int) * b = ((a * b : Nat) : Int) := by push_cast; rfl
  rw [e]
  exact if_neg fun hn => by omega

theorem read_ok (buf f g : List UInt8) (h : f.length = buf.length) : BinIO.read buf (f ++ g, false) = (f, (g, false)) := by
  unfold BinIO.read
  simp [← h]

theorem flatMap_block {γ δ : Type} (f : γ → List δ) (s : Nat) (l : List γ) (hs : ∀ a ∈ l, (f a).length = s) (k : Nat) (hk : k < l.length) :
    ((l.flatMap f).drop (k * s)).take s = f l[k] := by
  induction l generalizing k with
  | nil => simp at hk
  | cons a l ih =>
    have ha := hs a (by simp)
    cases k with
    | zero => simp [← ha]
    | succ k =>
      have := ih (fun b hb => hs b (by simp [hb])) k (by simpa using hk)
      rw [List.flatMap_cons, Nat.succ_mul, Nat.add_comm, List.drop_append, List.drop_eq_nil_of_le (by omega), ha, Nat.add_sub_cancel_left,
        List.nil_append, this, List.getElem_cons_succ]

theorem flatMap_length {γ δ : Type} (f : γ → List δ) (s : Nat) (l : List γ) (hs : ∀ a ∈ l, (f a).length = s) :
    (l.flatMap f).length = l.length * s := by
  induction l with
  | nil => simp
  | cons a l ih =>
    rw [List.flatMap_cons, List.length_append, hs a (by simp), ih fun b hb => hs b (by simp [hb]), List.length_cons]; ring

theorem nested_getElem {δ : Type} (n m : Nat) (g : Nat → Nat → δ) (i j : Nat) (hi : i < n) (hj : j < m)
    (h : i * m + j < ((List.range n).flatMap fun i => (List.range m).map (g i)).length) :
    ((List.range n).flatMap fun i => (List.range m).map (g i))[i * m + j] = g i j := by
  have h1 := flatMap_block (fun i => (List.range m).map (g i)) m (List.range n) (by simp) i (by simpa using hi)
  have h2 := congrArg (fun l => l[j]?) h1
  simp only [List.getElem?_take, if_pos hj, List.getElem?_drop, List.getElem_range, List.getElem?_map, List.getElem?_range hj,
    Option.map_some] at h2
  rw [List.getElem?_eq_getElem h] at h2
  exact Option.some.inj h2

theorem storage_length (r : Bool) (m : EMat α) : (storage r m).length = m.rows * m.cols := by
  unfold storage
  split
  · rw [flatMap_length _ m.cols _ (by simp)]; simp
  · rw [flatMap_length _ m.rows _ (by simp)]; simp [Nat.mul_comm]

theorem storage_get (r : Bool) (m : EMat α) (i j : Nat) (hi : i < m.rows) (hj : j < m.cols)
    (h : (if r then i * m.cols + j else j * m.rows + i) < (storage r m).length) :
    (storage r m)[if r then i * m.cols + j else j * m.rows + i] = m.at' i j := by
  unfold storage at h ⊢
  cases r
  · simp only [Bool.false_eq_true, if_false] at h ⊢
    exact nested_getElem m.cols m.rows (fun j i => m.at' i j) j i hj hi h
  · simp only [if_true] at h ⊢
    exact nested_getElem m.rows m.cols (fun i j => m.at' i j) i j hi hj h

/-- The file of a matrix of less than 2 GiB. -/
theorem file_eq (c : Codec α) (hc : Lawful c) (r : Bool) (m : EMat α) (hr : m.rows < 2147483648) (hk : m.cols < 2147483648)
    (hs : m.rows * m.cols * c.size < 2147483648) :
    print2bin c r m = some (encInt c.size ++ (encInt (if r then 1 else 0) ++ (encInt m.rows ++ (encInt m.cols ++
      (storage r m).flatMap c.enc)))) := by
  obtain ⟨hc1, hc2, hc3⟩ := hc
  have h1 : toInt32 m.rows = m.rows := decInt_encInt _ (by omega) (by omega)
  have h2 : toInt32 m.cols = m.cols := decInt_encInt _ (by omega) (by omega)
  have hrc : m.rows * m.cols < 2147483648 := lt_of_le_of_lt (Nat.le_mul_of_pos_right _ hc2) hs
  have hl : ((storage r m).flatMap c.enc).length = m.rows * m.cols * c.size := by
    rw [flatMap_length _ c.size _ fun a _ => (hc1 a).1, storage_length]
  have i1 : intMul m.rows m.cols = some ((m.rows * m.cols : Nat) : Int) := intMul_ok _ _ hrc
  have i2 : intMul ((m.rows * m.cols : Nat) : Int) c.size = some ((m.rows * m.cols * c.size : Nat) : Int) := intMul_ok _ _ hs
  unfold print2bin
  rw [h1, h2]
  unfold writeFile
  simp only [i1, Option.bind_eq_bind, Option.bind_some, i2, hl]
  rw [if_neg (by simp only [Int.toNat_natCast]; omega)]
  simp only [Int.toNat_natCast]
  rw [List.take_of_length_le (by rw [hl])]
  simp [List.append_assoc]

/-- Reading a complete header. -/
theorem header_eq (c : Codec α) (junk : Nat → UInt8) (a b r k : Int) (ha : -2147483648 ≤ a ∧ a < 2147483648)
    (hb : -2147483648 ≤ b ∧ b < 2147483648) (hr : -2147483648 ≤ r ∧ r < 2147483648) (hk : -2147483648 ≤ k ∧ k < 2147483648) (g : List UInt8) :
    bin2Mat c junk (some (encInt a ++ (encInt b ++ (encInt r ++ (encInt k ++ g))))) = readBody c junk (g, false) a b r k := by
  have e : ∀ (i : Int) (g : List UInt8), BinIO.read (encInt 0) (encInt i ++ g, false) = (encInt i, (g, false)) :=
    fun i g => read_ok _ _ _ rfl
  unfold bin2Mat
  simp only [e]
  rw [decInt_encInt a ha.1 ha.2, decInt_encInt b hb.1 hb.2, decInt_encInt r hr.1 hr.2, decInt_encInt k hk.1 hk.2]

/-- C56: writing a matrix in either storage order and reading the file returns zero and the same matrix, whatever the memory
held before. -/
theorem C56_roundtrip (c : Codec α) (hc : Lawful c) (r : Bool) (m : EMat α) (hr : m.rows < 2147483648) (hk : m.cols < 2147483648)
    (hs : m.rows * m.cols * c.size < 2147483648) :
    ∃ file, print2bin c r m = some file ∧ ∀ junk, ∃ m', bin2Mat c junk (some file) = some (0, some m') ∧
      m'.rows = m.rows ∧ m'.cols = m.cols ∧ ∀ i < m.rows, ∀ j < m.cols, m'.at' i j = m.at' i j := by
  refine ⟨_, file_eq c hc r m hr hk hs, fun junk => ?_⟩
  obtain ⟨hc1, hc2, hc3⟩ := hc
  have hrc : m.rows * m.cols < 2147483648 := lt_of_le_of_lt (Nat.le_mul_of_pos_right _ hc2) hs
  have hl : ((storage r m).flatMap c.enc).length = m.rows * m.cols * c.size := by
    rw [flatMap_length _ c.size _ fun a _ => (hc1 a).1, storage_length]
  have i1 : intMul m.rows m.cols = some ((m.rows * m.cols : Nat) : Int) := intMul_ok _ _ hrc
  have i2 : intMul ((m.rows * m.cols : Nat) : Int) c.size = some ((m.rows * m.cols * c.size : Nat) : Int) := intMul_ok _ _ hs
  have el : ∀ k, ∀ hk : k < (storage r m).length, element c ((storage r m).flatMap c.enc) k = (storage r m)[k] := by
    intro k hk
    unfold element
    rw [flatMap_block _ c.size _ (fun a _ => (hc1 a).1) k hk, (hc1 _).2]
  rw [header_eq c junk _ _ _ _ (by omega) (by cases r <;> simp) (by omega) (by omega)]
  unfold readBody
  simp only [ne_eq, not_true_eq_false, if_false, i1, i2, Option.bind_eq_bind, Option.bind_some]
  rw [if_neg (by omega)]
  have hrd := read_ok ((List.range ((m.rows * m.cols * c.size : Nat) : Int).toNat).map junk) ((storage r m).flatMap c.enc) []
    (by simp only [Int.toNat_natCast, List.length_map, List.length_range]; exact hl)
  rw [List.append_nil] at hrd
  rw [hrd]
  cases r
  · simp only [Bool.false_eq_true, if_false, not_true_eq_false]
    refine ⟨_, rfl, rfl, rfl, fun i hi j hj => ?_⟩
    have hb : j * m.rows + i < (storage false m).length := by
      rw [storage_length]
      calc j * m.rows + i < j * m.rows + m.rows := by omega
        _ = (j + 1) * m.rows := by ring
        _ ≤ m.cols * m.rows := Nat.mul_le_mul_right _ hj
        _ = m.rows * m.cols := Nat.mul_comm _ _
    simp only [Int.toNat_natCast]
    rw [el _ hb]
    exact storage_get false m i j hi hj hb
  · simp only [if_true, one_ne_zero, not_false_eq_true]
    refine ⟨_, rfl, rfl, rfl, fun i hi j hj => ?_⟩
    have hb : i * m.cols + j < (storage true m).length := by
      rw [storage_length]
      calc i * m.cols + j < i * m.cols + m.cols := by omega
        _ = (i + 1) * m.cols := by ring
        _ ≤ m.rows * m.cols := Nat.mul_le_mul_right _ hi
    simp only [Int.toNat_natCast]
    rw [el _ hb]
    exact storage_get true m i j hi hj hb

/-- C56: reading with a scalar type of another size returns one and leaves the target alone. -/
theorem C56_mismatch (c : Codec α) (d : Codec β) (hc : Lawful c) (hd : c.size ≠ d.size) (r : Bool) (m : EMat α)
    (hr : m.rows < 2147483648) (hk : m.cols < 2147483648) (hs : m.rows * m.cols * c.size < 2147483648) :
    ∃ file, print2bin c r m = some file ∧ ∀ junk, bin2Mat d junk (some file) = some (1, none) := by
  refine ⟨_, file_eq c hc r m hr hk hs, fun junk => ?_⟩
  obtain ⟨hc1, hc2, hc3⟩ := hc
  rw [header_eq d junk _ _ _ _ (by omega) (by cases r <;> simp) (by omega) (by omega)]
  unfold readBody
  rw [if_pos (by omega)]

/-- C56: a file that cannot be opened or is empty is reported as well. -/
theorem C56_missing (d : Codec β) (hd : Lawful d) (junk : Nat → UInt8) (file : Option (List UInt8)) (h : file = none ∨ file = some []) :
    bin2Mat d junk file = some (1, none) := by
  have h0 : decInt (encInt 0) = 0 := decInt_encInt 0 (by omega) (by omega)
  have h1 : ∀ b, (BinIO.read (encInt 0) (([] : List UInt8), b)).1 = encInt 0 := by intro b; cases b <;> rfl
  have := hd.2.1
  unfold bin2Mat readBody
  rcases h with rfl | rfl
  · simp only [h1, h0]
    rw [if_pos (by omega)]
  · simp only [h1, h0]
    rw [if_pos (by omega)]

/-- C56: a file that was cut off after the header is not reported: the return value is zero and the entries are whatever the
memory held. -/
theorem C56_truncated (d : Codec β) (hd : Lawful d) (junk : Nat → UInt8) (rows cols : Nat) (hr : rows < 2147483648) (hk : cols < 2147483648)
    (hs : rows * cols * d.size < 2147483648) :
    ∃ m', bin2Mat d junk (some (encInt d.size ++ (encInt 1 ++ (encInt rows ++ (encInt cols ++ []))))) = some (0, some m') ∧
      m'.rows = rows ∧ m'.cols = cols ∧ ∀ i j, m'.at' i j = element d ((List.range (rows * cols * d.size)).map junk) (i * cols + j) := by
  obtain ⟨hc1, hc2, hc3⟩ := hd
  have hrc : rows * cols < 2147483648 := lt_of_le_of_lt (Nat.le_mul_of_pos_right _ hc2) hs
  have i1 : intMul rows cols = some ((rows * cols : Nat) : Int) := intMul_ok _ _ hrc
  have i2 : intMul ((rows * cols : Nat) : Int) d.size = some ((rows * cols * d.size : Nat) : Int) := intMul_ok _ _ hs
  rw [header_eq d junk _ _ _ _ (by omega) (by omega) (by omega) (by omega)]
  unfold readBody
  simp only [ne_eq, not_true_eq_false, if_false, i1, i2, Option.bind_eq_bind, Option.bind_some]
  rw [if_neg (by omega), if_pos (by omega)]
  have e : ∀ buf : List UInt8, (BinIO.read buf ([], false)).1 = buf := by intro buf; simp [BinIO.read]
  simp only [Int.toNat_natCast, e]
  exact ⟨_, rfl, rfl, rfl, fun i j => rfl⟩

/-- C56: from 2 GiB on the number of bytes overflows. -/
theorem C56_limit (c : Codec α) (hc : Lawful c) (r : Bool) (m : EMat α) (hr : m.rows < 2147483648) (hk : m.cols < 2147483648)
    (hs : 2147483648 ≤ m.rows * m.cols * c.size) : print2bin c r m = none := by
  obtain ⟨hc1, hc2, hc3⟩ := hc
  have h1 : toInt32 m.rows = m.rows := decInt_encInt _ (by omega) (by omega)
  have h2 : toInt32 m.cols = m.cols := decInt_encInt _ (by omega) (by omega)
  unfold print2bin
  rw [h1, h2]
  unfold writeFile
  by_cases h : m.rows * m.cols < 2147483648
  · simp only [intMul_ok _ _ h, Option.bind_eq_bind, Option.bind_some, intMul_overflow _ _ hs, Option.bind_none]
  · simp only [intMul_overflow _ _ (Nat.le_of_not_lt h), Option.bind_eq_bind, Option.bind_none]

/-- A scalar type of two bytes. -/
def pairCodec : Codec (UInt8 × UInt8) := ⟨2, fun a => [a.1, a.2], fun b => (b.getD 0 0, b.getD 1 0)⟩

theorem pairCodec_lawful : Lawful pairCodec := ⟨fun _ => ⟨rfl, rfl⟩, by decide, by decide⟩

/-- The hypotheses are met by a 2 × 3 matrix; the two storage orders give different files. -/
example : let m : EMat (UInt8 × UInt8) := ⟨2, 3, fun i j => (UInt8.ofNat i, UInt8.ofNat j)⟩
    Lawful pairCodec ∧ m.rows * m.cols * pairCodec.size < 2147483648 ∧
    print2bin pairCodec true m = some ([2, 0, 0, 0, 1, 0, 0, 0, 2, 0, 0, 0, 3, 0, 0, 0] ++ [0, 0, 0, 1, 0, 2, 1, 0, 1, 1, 1, 2]) ∧
    print2bin pairCodec false m = some ([2, 0, 0, 0, 0, 0, 0, 0, 2, 0, 0, 0, 3, 0, 0, 0] ++ [0, 0, 1, 0, 0, 1, 1, 1, 0, 2, 1, 2]) :=
  ⟨pairCodec_lawful, by decide, by rw [file_eq _ pairCodec_lawful _ _ (by decide) (by decide) (by decide)]; decide +kernel,
    by rw [file_eq _ pairCodec_lawful _ _ (by decide) (by decide) (by decide)]; decide +kernel⟩

end Bembel.Props
