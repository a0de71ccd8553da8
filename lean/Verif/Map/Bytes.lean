/-
C14: integers and little-endian bytes (src/eudplib/utils/binio.py).
-/

namespace Eud.Map

abbrev Byte := BitVec 8
abbrev Bytes := List Byte

/-- binio.py:10-11 `b2i1`; `none` is an `IndexError`.  Indices are not negative. -/
def b2i1 (b : Bytes) (k : Nat) : Option Nat := do
  let x0 ← b[k]?
  return x0.toNat
/-- binio.py:14-15 -/
def b2i2 (b : Bytes) (k : Nat) : Option Nat := do
  let x0 ← b[k]?
  let x1 ← b[k + 1]?
  return x0.toNat ||| (x1.toNat <<< 8)
/-- binio.py:18-21 -/
def b2i4 (b : Bytes) (k : Nat) : Option Nat := do
  let x0 ← b[k]?
  let x1 ← b[k + 1]?
  let x2 ← b[k + 2]?
  let x3 ← b[k + 3]?
  return x0.toNat ||| (x1.toNat <<< 8) ||| (x2.toNat <<< 16) ||| (x3.toNat <<< 24)

/-- `i & (2^k - 1)` of a Python integer. -/
def pyMask (i : Int) (k : Nat) : Nat := (i % (2 ^ k : Nat)).toNat

/-- binio.py:24-25 -/
def i2b1 (i : Int) : Bytes := [BitVec.ofNat 8 (pyMask i 8)]
/-- binio.py:28-30 -/
def i2b2 (i : Int) : Bytes :=
  let n := pyMask i 16
  [BitVec.ofNat 8 (n &&& 0xFF), BitVec.ofNat 8 ((n >>> 8) &&& 0xFF)]
/-- binio.py:33-35 -/
def i2b4 (i : Int) : Bytes :=
  let n := pyMask i 32
  [BitVec.ofNat 8 (n &&& 0xFF), BitVec.ofNat 8 ((n >>> 8) &&& 0xFF), BitVec.ofNat 8 ((n >>> 16) &&& 0xFF),
    BitVec.ofNat 8 ((n >>> 24) &&& 0xFF)]

/-! ## Specification -/

/-- The number a little-endian byte string stands for. -/
def leVal : Bytes → Nat
  | [] => 0
  | x :: l => x.toNat + 256 * leVal l

theorem leVal_lt : ∀ b : Bytes, leVal b < 256 ^ b.length
  | [] => by simp [leVal]
  | x :: l => by
    have := leVal_lt l
    have := x.isLt
    simp only [leVal, List.length_cons, Nat.pow_succ]
    omega

theorem leVal_inj : ∀ {a b : Bytes}, a.length = b.length → leVal a = leVal b → a = b
  | [], [], _, _ => rfl
  | x :: a, y :: b, hl, h => by
    have h1 := x.isLt
    have h2 := y.isLt
    simp only [leVal] at h
    have h3 : x.toNat = y.toNat := by omega
    have h4 : leVal a = leVal b := by omega
    rw [BitVec.eq_of_toNat_eq h3, leVal_inj (by simpa using hl) h4]

/-- Bitwise or with a shifted number is addition. -/
theorem or_shift {a b k : Nat} (h : a < 2 ^ k) : a ||| (b <<< k) = a + b * 2 ^ k := by
  rw [Nat.or_comm, Nat.shiftLeft_eq, Nat.mul_comm, ← Nat.two_pow_add_eq_or_of_lt h]
  omega

theorem b2i1_eq {b : Bytes} {k n : Nat} : b2i1 b k = some n ↔ ((b.drop k).take 1).length = 1 ∧ leVal ((b.drop k).take 1) = n := by
  have h0 : b[k]? = (b.drop k)[0]? := by rw [List.getElem?_drop]; rfl
  simp only [b2i1, h0]
  match b.drop k with
  | [] => simp
  | x :: l => simp [leVal]

theorem b2i2_eq {b : Bytes} {k n : Nat} : b2i2 b k = some n ↔ ((b.drop k).take 2).length = 2 ∧ leVal ((b.drop k).take 2) = n := by
  have hd : ∀ i, b[k + i]? = (b.drop k)[i]? := fun i => by rw [List.getElem?_drop]
  have h0 : b[k]? = (b.drop k)[0]? := hd 0
  simp only [b2i2, h0, hd 1]
  match b.drop k with
  | [] => simp
  | [x] => simp
  | x :: y :: l =>
    have := x.isLt
    simp only [List.getElem?_cons_zero, List.getElem?_cons_succ, Option.bind_eq_bind, Option.bind_some, Option.pure_def, Option.some.injEq,
      List.take_succ_cons, List.take_zero, leVal, List.length_cons, List.length_nil, true_and]
    rw [or_shift this]
    omega

theorem b2i4_eq {b : Bytes} {k n : Nat} : b2i4 b k = some n ↔ ((b.drop k).take 4).length = 4 ∧ leVal ((b.drop k).take 4) = n := by
  have hd : ∀ i, b[k + i]? = (b.drop k)[i]? := fun i => by rw [List.getElem?_drop]
  have h0 : b[k]? = (b.drop k)[0]? := hd 0
  simp only [b2i4, h0, hd 1, hd 2, hd 3]
  match b.drop k with
  | [] => simp
  | [x] => simp
  | [x, y] => simp
  | [x, y, z] => simp
  | x :: y :: z :: w :: l =>
    have h1 := x.isLt
    have h2 := y.isLt
    have h3 := z.isLt
    simp only [List.getElem?_cons_zero, List.getElem?_cons_succ, Option.bind_eq_bind, Option.bind_some, Option.pure_def, Option.some.injEq,
      List.take_succ_cons, List.take_zero, leVal, List.length_cons, List.length_nil, true_and]
    rw [or_shift h1, or_shift (a := x.toNat + y.toNat * 2 ^ 8) (by omega), or_shift (a := x.toNat + y.toNat * 2 ^ 8 + z.toNat * 2 ^ 16) (by omega)]
    omega

theorem and_255 (n : Nat) : n &&& 0xFF = n % 256 := Nat.and_two_pow_sub_one_eq_mod n 8

theorem leVal_i2b1 (i : Int) : (leVal (i2b1 i) : Int) = i % 256 := by
  simp only [i2b1, leVal, BitVec.toNat_ofNat, pyMask]
  omega
theorem leVal_i2b2 (i : Int) : (leVal (i2b2 i) : Int) = i % 65536 := by
  simp only [i2b2, leVal, and_255, BitVec.toNat_ofNat, pyMask, Nat.shiftRight_eq_div_pow]
  omega
theorem leVal_i2b4 (i : Int) : (leVal (i2b4 i) : Int) = i % 4294967296 := by
  simp only [i2b4, leVal, and_255, BitVec.toNat_ofNat, pyMask, Nat.shiftRight_eq_div_pow]
  omega

theorem i2b1_length (i : Int) : (i2b1 i).length = 1 := rfl
theorem i2b2_length (i : Int) : (i2b2 i).length = 2 := rfl
theorem i2b4_length (i : Int) : (i2b4 i).length = 4 := rfl

theorem mid_drop (p m s : Bytes) : ((p ++ m ++ s).drop p.length).take m.length = m := by
  simp

/-- **C14 (to bytes and back).** At any position inside any bytes, the integer read is the one written, modulo 2^8, 2^16 or 2^32. -/
theorem C14_read_written (i : Int) (p s : Bytes) :
    b2i1 (p ++ i2b1 i ++ s) p.length = some (i % 2 ^ 8).toNat ∧
    b2i2 (p ++ i2b2 i ++ s) p.length = some (i % 2 ^ 16).toNat ∧
    b2i4 (p ++ i2b4 i ++ s) p.length = some (i % 2 ^ 32).toNat := by
  refine ⟨?_, ?_, ?_⟩
  · rw [b2i1_eq]
    have := mid_drop p (i2b1 i) s
    rw [i2b1_length] at this
    rw [this]
    have h := leVal_i2b1 i
    exact ⟨rfl, by omega⟩
  · rw [b2i2_eq]
    have := mid_drop p (i2b2 i) s
    rw [i2b2_length] at this
    rw [this]
    have h := leVal_i2b2 i
    exact ⟨rfl, by omega⟩
  · rw [b2i4_eq]
    have := mid_drop p (i2b4 i) s
    rw [i2b4_length] at this
    rw [this]
    have h := leVal_i2b4 i
    exact ⟨rfl, by omega⟩

/-- **C14 (from bytes and back).** An integer that was read is the little-endian value of the bytes, is in range, and gives these bytes
again; it is read whenever the bytes are there. -/
theorem C14_written_read (b : Bytes) (k : Nat) :
    (∀ n, b2i1 b k = some n → i2b1 n = (b.drop k).take 1 ∧ n < 2 ^ 8) ∧
    (∀ n, b2i2 b k = some n → i2b2 n = (b.drop k).take 2 ∧ n < 2 ^ 16) ∧
    (∀ n, b2i4 b k = some n → i2b4 n = (b.drop k).take 4 ∧ n < 2 ^ 32) ∧
    ((b2i1 b k).isSome ↔ k + 1 ≤ b.length) ∧ ((b2i2 b k).isSome ↔ k + 2 ≤ b.length) ∧ ((b2i4 b k).isSome ↔ k + 4 ≤ b.length) := by
  refine ⟨?_, ?_, ?_, ?_, ?_, ?_⟩
  · intro n hn
    obtain ⟨h1, h2⟩ := b2i1_eq.1 hn
    have h3 := leVal_lt ((b.drop k).take 1)
    rw [h1] at h3
    have h4 := leVal_i2b1 n
    exact ⟨leVal_inj (by rw [h1]; rfl) (by omega), by omega⟩
  · intro n hn
    obtain ⟨h1, h2⟩ := b2i2_eq.1 hn
    have h3 := leVal_lt ((b.drop k).take 2)
    rw [h1] at h3
    have h4 := leVal_i2b2 n
    exact ⟨leVal_inj (by rw [h1]; rfl) (by omega), by omega⟩
  · intro n hn
    obtain ⟨h1, h2⟩ := b2i4_eq.1 hn
    have h3 := leVal_lt ((b.drop k).take 4)
    rw [h1] at h3
    have h4 := leVal_i2b4 n
    exact ⟨leVal_inj (by rw [h1]; rfl) (by omega), by omega⟩
  · rw [Option.isSome_iff_exists]
    simp only [b2i1_eq, List.length_take, List.length_drop]
    constructor
    · rintro ⟨n, h, -⟩; omega
    · intro h; exact ⟨_, by omega, rfl⟩
  · rw [Option.isSome_iff_exists]
    simp only [b2i2_eq, List.length_take, List.length_drop]
    constructor
    · rintro ⟨n, h, -⟩; omega
    · intro h; exact ⟨_, by omega, rfl⟩
  · rw [Option.isSome_iff_exists]
    simp only [b2i4_eq, List.length_take, List.length_drop]
    constructor
    · rintro ⟨n, h, -⟩; omega
    · intro h; exact ⟨_, by omega, rfl⟩

example : i2b4 (-2) = [0xFE, 0xFF, 0xFF, 0xFF] ∧ b2i4 [9, 0xFE, 0xFF, 0xFF, 0xFF] 1 = some 0xFFFFFFFE := by decide

end Eud.Map
