/-
Address expressions: `ConstExpr`, `Forward` (src/rust/src/allocator/constexpr.rs), `RlocInt`
(src/rust/src/allocator/rlocint.rs) and `EPD` of constants (src/eudplib/utils/etc.py:28-43).

`i32` values are integers in `[-2^31, 2^31)`; arithmetic on them wraps, because the release profile
switches overflow checks off (src/rust/Cargo.toml:33-34).  Rust panics and Python exceptions are both
`none`.
-/

namespace Eud.Expr

/-- `x as i32`, and the result of wrapping `i32` arithmetic. -/
def i32 (x : Int) : Int := x.bmod (2 ^ 32)

def IsI32 (x : Int) : Prop := -2 ^ 31 ≤ x ∧ x < 2 ^ 31

instance (x : Int) : Decidable (IsI32 x) := by unfold IsI32; infer_instance

/-- Congruence modulo `2^32`: the two integers are the same machine word. -/
def Same (a b : Int) : Prop := a % 2 ^ 32 = b % 2 ^ 32

instance (a b : Int) : Decidable (Same a b) := by unfold Same; infer_instance

theorem i32_same (x : Int) : Same (i32 x) x := by
  unfold Same i32
  exact Int.bmod_emod

theorem i32_is (x : Int) : IsI32 (i32 x) := by
  unfold IsI32 i32
  constructor
  · have := Int.le_bmod (x := x) (m := 2 ^ 32) (by decide)
    omega
  · have := Int.bmod_lt (x := x) (m := 2 ^ 32) (by decide)
    omega

theorem i32_id {x : Int} (h : IsI32 x) : i32 x = x := by
  unfold IsI32 at h
  unfold i32
  apply Int.bmod_eq_of_le <;> simp <;> omega

theorem Same.trans {a b c : Int} (h : Same a b) (g : Same b c) : Same a c := Eq.trans h g
theorem Same.symm {a b : Int} (h : Same a b) : Same b a := Eq.symm h
theorem Same.refl (a : Int) : Same a a := rfl

theorem same_iff {a b : Int} : Same a b ↔ ∃ k, a = b + 2 ^ 32 * k := by
  unfold Same
  constructor
  · intro h
    exact ⟨a / 2 ^ 32 - b / 2 ^ 32, by omega⟩
  · rintro ⟨k, rfl⟩
    omega

theorem Same.add {a b c d : Int} (h : Same a b) (g : Same c d) : Same (a + c) (b + d) := by
  unfold Same at *; omega
theorem Same.sub {a b c d : Int} (h : Same a b) (g : Same c d) : Same (a - c) (b - d) := by
  unfold Same at *; omega
theorem Same.neg {a b : Int} (h : Same a b) : Same (-a) (-b) := by
  unfold Same at *; omega
theorem Same.mul {a b c d : Int} (h : Same a b) (g : Same c d) : Same (a * c) (b * d) := by
  obtain ⟨k, rfl⟩ := same_iff.1 h
  obtain ⟨l, rfl⟩ := same_iff.1 g
  exact same_iff.2 ⟨b * l + k * d + 2 ^ 32 * k * l, by grind⟩

/-! ## Division -/

/-- rlocint.rs:24-43 `divrem_floor` for `i32`; dividing by 0 and `i32::MIN / -1` panic. -/
def divremFloor (a b : Int) : Option (Int × Int) :=
  if b = 0 ∨ (a = -2 ^ 31 ∧ b = -1) then none
  else
    let q := a / b
    let r := a % b
    if 0 < b then some (q, r) else if r = 0 then some (q, 0) else some (q - 1, r + b)

/-- The routine is floor division (specification: quotient rounded down, remainder with the sign of the
divisor). -/
theorem divremFloor_spec {a b q r : Int} (h : divremFloor a b = some (q, r)) :
    a = b * q + r ∧ (0 < b → 0 ≤ r ∧ r < b) ∧ (b < 0 → b < r ∧ r ≤ 0) ∧ b ≠ 0 := by
  unfold divremFloor at h
  split at h
  · simp at h
  · rename_i hb
    have e := Int.mul_ediv_add_emod a b
    simp only at h
    split at h
    · rename_i hp
      simp only [Option.some.injEq, Prod.mk.injEq] at h
      obtain ⟨rfl, rfl⟩ := h
      exact ⟨e.symm, fun _ => ⟨Int.emod_nonneg _ (by omega), Int.emod_lt_of_pos _ hp⟩, fun _ => by omega, by omega⟩
    · rename_i hp
      have hneg : b < 0 := by omega
      have h1 := Int.emod_nonneg a (show b ≠ 0 by omega)
      have h2 := Int.emod_lt a (show b ≠ 0 by omega)
      split at h
      · rename_i hr
        simp only [Option.some.injEq, Prod.mk.injEq] at h
        obtain ⟨rfl, rfl⟩ := h
        exact ⟨by omega, fun _ => by omega, fun _ => by omega, by omega⟩
      · rename_i hr
        simp only [Option.some.injEq, Prod.mk.injEq] at h
        obtain ⟨rfl, rfl⟩ := h
        refine ⟨?_, fun _ => by omega, fun _ => by omega, by omega⟩
        rw [Int.mul_sub]
        omega

/-- Floor division of integers. -/
def IsFloor (q a b : Int) : Prop := ∃ r, a = b * q + r ∧ (0 < b → 0 ≤ r ∧ r < b) ∧ (b < 0 → b < r ∧ r ≤ 0) ∧ b ≠ 0

/-! ## Evaluated values -/

/-- rlocint.rs:48-51 -/
structure RlocInt where
  offset : Int
  mode : Int
deriving DecidableEq, Repr

/-- The number represented when the payload is loaded at address `4 * B`. -/
def RlocInt.val (B : Int) (r : RlocInt) : Int := r.offset + r.mode * B

def RlocInt.Ok (r : RlocInt) : Prop := IsI32 r.offset ∧ IsI32 r.mode

/-- Right operands of the Python operators. -/
inductive Rhs
  | rl (r : RlocInt)
  | int (n : Int)

def Rhs.val (B : Int) : Rhs → Int
  | .rl r => r.val B
  | .int n => n

/-- rlocint.rs:97-110 `__add__`, `__radd__`; integers that are no `i32` are refused. -/
def RlocInt.add (a : RlocInt) : Rhs → Option RlocInt
  | .rl b => some ⟨i32 (a.offset + b.offset), i32 (a.mode + b.mode)⟩
  | .int n => if IsI32 n then some ⟨i32 (a.offset + n), a.mode⟩ else none

/-- rlocint.rs:116-129 -/
def RlocInt.sub (a : RlocInt) : Rhs → Option RlocInt
  | .rl b => some ⟨i32 (a.offset - b.offset), i32 (a.mode - b.mode)⟩
  | .int n => if IsI32 n then some ⟨i32 (a.offset - n), a.mode⟩ else none

/-- rlocint.rs:131-144 -/
def RlocInt.rsub (a : RlocInt) : Rhs → Option RlocInt
  | .rl b => some ⟨i32 (b.offset - a.offset), i32 (b.mode - a.mode)⟩
  | .int n => if IsI32 n then some ⟨i32 (n - a.offset), i32 (-a.mode)⟩ else none

/-- rlocint.rs:146-169 `__mul__`, `__rmul__` -/
def RlocInt.mul (a : RlocInt) : Rhs → Option RlocInt
  | .rl b => if b.mode = 0 then some ⟨i32 (a.offset * b.offset), i32 (a.mode * b.offset)⟩ else none
  | .int n => if IsI32 n then some ⟨i32 (a.offset * n), i32 (a.mode * n)⟩ else none

/-- rlocint.rs:171-189: both parts are divided, whether or not they are divisible. -/
def RlocInt.floordiv (a : RlocInt) (n : Int) : Option RlocInt :=
  match divremFloor a.offset n, divremFloor a.mode n with
  | some (q, _), some (p, _) => some ⟨i32 q, i32 p⟩
  | _, _ => none

/-- Bitwise operations of `i32`s. -/
def bits (f : BitVec 32 → BitVec 32 → BitVec 32) (a b : Int) : Int := (f (BitVec.ofInt 32 a) (BitVec.ofInt 32 b)).toInt

/-- rlocint.rs:191-216 `__and__`, `__rand__`, and (254-256) `__ror__` -/
def RlocInt.and (a : RlocInt) (b : Rhs) : Option RlocInt :=
  if a.mode ≠ 0 ∧ a.mode ≠ 4 then none
  else match b with
    | .rl b => if a.mode ≠ 0 ∨ b.mode ≠ 0 then none else some ⟨bits (· &&& ·) a.offset b.offset, 0⟩
    | .int n => if ¬ IsI32 n then none
        else if a.mode = 4 ∧ bits (· &&& ·) n 3 ≠ n then none
        else some ⟨bits (· &&& ·) a.offset n, a.mode⟩

/-- rlocint.rs:222-252 `__or__` -/
def RlocInt.or (a : RlocInt) (b : Rhs) : Option RlocInt :=
  if a.mode ≠ 0 ∧ a.mode ≠ 4 then none
  else match b with
    | .rl b => if a.mode ≠ 0 ∨ b.mode ≠ 0 then none else some ⟨bits (· ||| ·) a.offset b.offset, 0⟩
    | .int n => if ¬ IsI32 n then none
        else if a.mode = 4 ∧ bits (· &&& ·) n 3 ≠ n then none
        else some ⟨bits (· ||| ·) a.offset n, a.mode⟩

/-- rlocint.rs:254-256 `__ror__` calls `__and__`. -/
def RlocInt.ror (a : RlocInt) (b : Rhs) : Option RlocInt := a.and b

/-- rlocint.rs:258-266 -/
def RlocInt.invert (a : RlocInt) : Option RlocInt :=
  if a.mode ≠ 0 then none else some ⟨-a.offset - 1, 0⟩

/-- rlocint.rs:268-276 -/
def RlocInt.neg (a : RlocInt) : Option RlocInt :=
  if a.mode ≠ 0 ∧ a.mode ≠ 4 then none else some ⟨i32 (-a.offset), 0⟩

/-! ### C06 -/

theorem toInt_same (n : Int) : Same (BitVec.ofInt 32 n).toInt n := by
  rw [BitVec.toInt_ofInt]
  exact i32_same n

theorem same_toInt {a b : Int} (h : Same a b) : BitVec.ofInt 32 a = BitVec.ofInt 32 b := by
  apply BitVec.eq_of_toInt_eq
  rw [BitVec.toInt_ofInt, BitVec.toInt_ofInt]
  unfold Same at h
  rw [← Int.emod_bmod, ← Int.emod_bmod (x := b)]
  have : ((2 ^ 32 : Nat) : Int) = 2 ^ 32 := by decide
  rw [this, h]

/-- **C06 (partial).** Addition, subtraction, multiplication (both operand orders), bitwise `|` with the
relocatable number on the left, `~`, and `&` and unary minus of plain numbers either are refused or give a number
congruent to the operation on the represented numbers, whatever the load address. -/
theorem C06_arith_partial (B : Int) (a c : RlocInt) (b : Rhs) :
    (a.add b = some c → Same (c.val B) (a.val B + b.val B)) ∧
    (a.sub b = some c → Same (c.val B) (a.val B - b.val B)) ∧
    (a.rsub b = some c → Same (c.val B) (b.val B - a.val B)) ∧
    (a.mul b = some c → Same (c.val B) (a.val B * b.val B)) := by
  have key : ∀ x y x' y' : Int, Same x' x → Same y' y → Same (x' + y' * B) (x + y * B) := fun x y x' y' h g =>
    h.add (g.mul (Same.refl B))
  refine ⟨?_, ?_, ?_, ?_⟩
  · cases b with
    | rl b =>
      simp only [RlocInt.add, Option.some.injEq]
      rintro rfl
      refine (key _ _ _ _ (i32_same _) (i32_same _)).trans ?_
      simp only [RlocInt.val, Rhs.val]
      rw [show a.offset + b.offset + (a.mode + b.mode) * B = a.offset + a.mode * B + (b.offset + b.mode * B) by grind]
      exact Same.refl _
    | int n =>
      simp only [RlocInt.add]
      split <;> simp only [Option.some.injEq, reduceCtorEq, false_implies]
      rintro rfl
      refine (key _ _ _ _ (i32_same _) (Same.refl _)).trans ?_
      simp only [RlocInt.val, Rhs.val]
      rw [show a.offset + n + a.mode * B = a.offset + a.mode * B + n by grind]
      exact Same.refl _
  · cases b with
    | rl b =>
      simp only [RlocInt.sub, Option.some.injEq]
      rintro rfl
      refine (key _ _ _ _ (i32_same _) (i32_same _)).trans ?_
      simp only [RlocInt.val, Rhs.val]
      rw [show a.offset - b.offset + (a.mode - b.mode) * B = a.offset + a.mode * B - (b.offset + b.mode * B) by grind]
      exact Same.refl _
    | int n =>
      simp only [RlocInt.sub]
      split <;> simp only [Option.some.injEq, reduceCtorEq, false_implies]
      rintro rfl
      refine (key _ _ _ _ (i32_same _) (Same.refl _)).trans ?_
      simp only [RlocInt.val, Rhs.val]
      rw [show a.offset - n + a.mode * B = a.offset + a.mode * B - n by grind]
      exact Same.refl _
  · cases b with
    | rl b =>
      simp only [RlocInt.rsub, Option.some.injEq]
      rintro rfl
      refine (key _ _ _ _ (i32_same _) (i32_same _)).trans ?_
      simp only [RlocInt.val, Rhs.val]
      rw [show b.offset - a.offset + (b.mode - a.mode) * B = b.offset + b.mode * B - (a.offset + a.mode * B) by grind]
      exact Same.refl _
    | int n =>
      simp only [RlocInt.rsub]
      split <;> simp only [Option.some.injEq, reduceCtorEq, false_implies]
      rintro rfl
      refine (key _ _ _ _ (i32_same _) (i32_same _)).trans ?_
      simp only [RlocInt.val, Rhs.val]
      rw [show n - a.offset + -a.mode * B = n - (a.offset + a.mode * B) by grind]
      exact Same.refl _
  · cases b with
    | rl b =>
      simp only [RlocInt.mul]
      split <;> simp only [Option.some.injEq, reduceCtorEq, false_implies]
      rename_i hb
      rintro rfl
      refine (key _ _ _ _ (i32_same _) (i32_same _)).trans ?_
      simp only [RlocInt.val, Rhs.val, hb]
      rw [show a.offset * b.offset + a.mode * b.offset * B = (a.offset + a.mode * B) * (b.offset + 0 * B) by grind]
      exact Same.refl _
    | int n =>
      simp only [RlocInt.mul]
      split <;> simp only [Option.some.injEq, reduceCtorEq, false_implies]
      rintro rfl
      refine (key _ _ _ _ (i32_same _) (i32_same _)).trans ?_
      simp only [RlocInt.val, Rhs.val]
      rw [show a.offset * n + a.mode * n * B = (a.offset + a.mode * B) * n by grind]
      exact Same.refl _

/-- The machine word a number stands for. -/
def word (n : Int) : BitVec 32 := BitVec.ofInt 32 n

theorem word_toInt (w : BitVec 32) : word w.toInt = w := BitVec.ofInt_toInt

theorem word_same {a b : Int} : word a = word b ↔ Same a b := by
  constructor
  · intro h
    have h2 := congrArg BitVec.toInt h
    unfold word at h2
    exact ((toInt_same a).symm.trans (by rw [h2]; exact Same.refl _)).trans (toInt_same b)
  · exact same_toInt

theorem word_add (a b : Int) : word (a + b) = word a + word b := BitVec.ofInt_add ..
theorem word_mul (a b : Int) : word (a * b) = word a * word b := BitVec.ofInt_mul ..

theorem low_eq (w B : BitVec 32) : (w + 4 * B) &&& 3 = w &&& 3 := by
  apply BitVec.eq_of_toNat_eq
  simp only [BitVec.toNat_and, BitVec.toNat_add, BitVec.toNat_mul]
  rw [show (3 : BitVec 32).toNat = 2 ^ 2 - 1 from rfl, Nat.and_two_pow_sub_one_eq_mod, Nat.and_two_pow_sub_one_eq_mod,
    show (4 : BitVec 32).toNat = 4 from rfl]
  omega

theorem or_low (w k : BitVec 32) : w ||| k = w + (k &&& ~~~w) := by
  rw [BitVec.add_eq_or_of_and_eq_zero]
  · apply BitVec.eq_of_getLsbD_eq
    intro i hi
    simp only [BitVec.getLsbD_or, BitVec.getLsbD_and, BitVec.getLsbD_not, hi, decide_true, Bool.true_and]
    cases w.getLsbD i <;> simp
  · apply BitVec.eq_of_getLsbD_eq
    intro i hi
    simp only [BitVec.getLsbD_and, BitVec.getLsbD_not, hi, decide_true, Bool.true_and]
    cases w.getLsbD i <;> simp

theorem or3 (w k B : BitVec 32) (hk : k &&& 3 = k) : (w ||| k) + 4 * B = (w + 4 * B) ||| k := by
  have e : ∀ x : BitVec 32, k &&& ~~~x = k &&& ~~~(x &&& 3) := by
    intro x
    apply BitVec.eq_of_getLsbD_eq
    intro i hi
    have := congrArg (fun x => x.getLsbD i) hk
    simp only [BitVec.getLsbD_and, BitVec.getLsbD_not, hi, decide_true, Bool.true_and] at this ⊢
    cases h1 : k.getLsbD i <;> cases h2 : x.getLsbD i <;> simp_all
  rw [or_low, or_low (w + 4 * B), e w, e (w + 4 * B), low_eq]
  grind

/-- **C06 (partial), bitwise operators and unary ones.** -/
theorem C06_bitwise_partial (B : Int) (a c : RlocInt) (b : Rhs) :
    (a.or b = some c → word (c.val B) = word (a.val B) ||| word (b.val B)) ∧
    (a.mode = 0 → a.and b = some c → word (c.val B) = word (a.val B) &&& word (b.val B)) ∧
    (a.invert = some c → word (c.val B) = ~~~ word (a.val B)) ∧
    (a.mode = 0 → a.neg = some c → word (c.val B) = - word (a.val B)) := by
  refine ⟨?_, ?_, ?_, ?_⟩
  · unfold RlocInt.or
    split
    · simp
    · rename_i hm
      cases b with
      | rl b =>
        simp only
        split <;> simp only [Option.some.injEq, reduceCtorEq, false_implies]
        rename_i hb
        rintro rfl
        simp only [not_or, Decidable.not_not] at hb
        simp only [RlocInt.val, Rhs.val, hb.1, hb.2, Int.zero_mul, Int.add_zero, bits, word_toInt]
        rfl
      | int n =>
        simp only
        split
        · simp
        · split
          · simp
          · rename_i hn h3
            simp only [Option.some.injEq]
            rintro rfl
            simp only [RlocInt.val, Rhs.val, bits]
            rw [word_add, word_add, word_mul, word_toInt]
            by_cases hz : a.mode = 0
            · simp only [hz]
              show (word a.offset ||| word n) + 0 * _ = (word a.offset + 0 * _) ||| word n
              simp
            · have h4 : a.mode = 4 := by
                simp only [not_and, Decidable.not_not] at hm
                exact hm hz
              simp only [h4, true_and, Decidable.not_not, bits] at h3
              rw [h4]
              refine or3 _ _ _ ?_
              have := congrArg word h3
              rw [word_toInt] at this
              exact this
  · intro hz
    unfold RlocInt.and
    split
    · simp
    · cases b with
      | rl b =>
        simp only
        split <;> simp only [Option.some.injEq, reduceCtorEq, false_implies]
        rename_i hb
        rintro rfl
        simp only [not_or, Decidable.not_not] at hb
        simp only [RlocInt.val, Rhs.val, hb.1, hb.2, Int.zero_mul, Int.add_zero, bits, word_toInt]
        rfl
      | int n =>
        simp only
        split
        · simp
        · split
          · simp
          · simp only [Option.some.injEq]
            rintro rfl
            simp only [RlocInt.val, Rhs.val, hz, Int.zero_mul, Int.add_zero, bits, word_toInt]
            rfl
  · unfold RlocInt.invert
    split <;> simp only [Option.some.injEq, reduceCtorEq, false_implies]
    rename_i hz
    rintro rfl
    simp only [Decidable.not_not] at hz
    simp only [RlocInt.val, hz, Int.zero_mul, Int.add_zero]
    rw [show -a.offset - 1 = -a.offset + -1 by omega, word_add]
    show BitVec.ofInt 32 (-a.offset) + BitVec.ofInt 32 (-1) = ~~~ BitVec.ofInt 32 a.offset
    rw [BitVec.ofInt_neg, BitVec.neg_eq_not_add, show BitVec.ofInt 32 (-1) = (-1 : BitVec 32) from rfl]
    grind
  · intro hz
    unfold RlocInt.neg
    split <;> simp only [Option.some.injEq, reduceCtorEq, false_implies]
    rintro rfl
    simp only [RlocInt.val, hz, Int.zero_mul, Int.add_zero]
    rw [word_same.2 (i32_same _)]
    exact BitVec.ofInt_neg

/-- `//` is right for plain numbers and where both parts are divisible. -/
theorem C06_floordiv_partial (B : Int) (a c : RlocInt) (n : Int) (ha : a.Ok) (h : a.floordiv n = some c)
    (hd : n ∣ a.mode) : IsFloor (c.val B) (a.val B) n := by
  unfold RlocInt.floordiv at h
  split at h
  · rename_i q r p r' hq hp
    obtain ⟨e1, e2, e3, e4⟩ := divremFloor_spec hq
    obtain ⟨f1, f2, f3, -⟩ := divremFloor_spec hp
    have hr' : r' = 0 := by
      obtain ⟨k, hk⟩ := hd
      have hkp : r' = n * (k - p) := by rw [Int.mul_sub]; omega
      rcases Int.lt_trichotomy n 0 with hn | hn | hn
      · obtain ⟨g1, g2⟩ := f3 hn
        have : k - p = 0 := by
          rcases Int.lt_trichotomy (k - p) 0 with h | h | h
          · have := Int.mul_pos_of_neg_of_neg hn h; omega
          · exact h
          · have := Int.mul_le_mul_of_nonpos_left (show n ≤ 0 by omega) (show 1 ≤ k - p by omega)
            omega
        rw [hkp, this, Int.mul_zero]
      · exact absurd hn e4
      · obtain ⟨g1, g2⟩ := f2 hn
        have : k - p = 0 := by
          rcases Int.lt_trichotomy (k - p) 0 with h | h | h
          · have := Int.mul_neg_of_pos_of_neg hn h; omega
          · exact h
          · have := Int.mul_le_mul_of_nonneg_left (show 1 ≤ k - p by omega) (show 0 ≤ n by omega)
            omega
        rw [hkp, this, Int.mul_zero]
    have bound : ∀ x y z, IsI32 x → divremFloor x n = some (y, z) → IsI32 y := by
      intro x y z hx h
      obtain ⟨g1, g2, g3, g4⟩ := divremFloor_spec h
      have hno : ¬ (x = -2 ^ 31 ∧ n = -1) := by
        intro hh
        unfold divremFloor at h
        rw [if_pos (Or.inr hh)] at h
        simp at h
      unfold IsI32 at hx ⊢
      rcases Int.lt_trichotomy n 0 with hn | hn | hn
      · obtain ⟨k1, k2⟩ := g3 hn
        rcases Int.lt_or_le y (-2 ^ 31) with hy | hy
        · have := Int.mul_le_mul_of_nonpos_left (show n ≤ 0 by omega) (show y ≤ -2 ^ 31 - 1 by omega)
          omega
        · rcases Int.lt_or_le y (2 ^ 31) with hy2 | hy2
          · exact ⟨hy, hy2⟩
          · by_cases hn1 : n = -1
            · subst hn1; omega
            · have := Int.mul_le_mul_of_nonpos_left (show n ≤ 0 by omega) hy2
              omega
      · exact absurd hn g4
      · obtain ⟨k1, k2⟩ := g2 hn
        rcases Int.lt_or_le y (-2 ^ 31) with hy | hy
        · have := Int.mul_le_mul_of_nonneg_left (show y ≤ -2 ^ 31 - 1 by omega) (show 0 ≤ n by omega)
          omega
        · rcases Int.lt_or_le y (2 ^ 31) with hy2 | hy2
          · exact ⟨hy, hy2⟩
          · have := Int.mul_le_mul_of_nonneg_left hy2 (show 0 ≤ n by omega)
            omega
    simp only [Option.some.injEq] at h
    subst h
    rw [RlocInt.val, i32_id (bound _ _ _ ha.1 hq), i32_id (bound _ _ _ ha.2 hp)]
    refine ⟨r, ?_, e2, e3, e4⟩
    simp only [RlocInt.val]
    rw [e1, f1, hr']
    grind
  · simp at h

example : (⟨0x1000, 4⟩ : RlocInt).floordiv 4 = some ⟨0x400, 1⟩ := by decide
example : (⟨6, 4⟩ : RlocInt).or (.int 1) = some ⟨7, 4⟩ := by decide

/-- **C06 is false in general:** `4 | p` computes an `and`; `p & 3` keeps the load address in the result; `-p`
forgets the load address; `e // 4` rounds the load address away.  In each case nothing is refused. -/
theorem C06_counterexample :
    (∃ a b c, RlocInt.ror a (.int b) = some c ∧ word (c.val 0) ≠ word b ||| word (a.val 0)) ∧
    (∃ a b c, RlocInt.and a (.int b) = some c ∧ word (c.val 1) ≠ word (a.val 1) &&& word b) ∧
    (∃ a c, RlocInt.neg a = some c ∧ ¬ Same (c.val 1) (-(a.val 1))) ∧
    (∃ a c, RlocInt.floordiv a 4 = some c ∧ ¬ IsFloor (c.val 4) (a.val 4) 4) := by
  refine ⟨⟨⟨1, 0⟩, 4, ⟨0, 0⟩, by decide, by decide⟩, ⟨⟨8, 4⟩, 3, ⟨0, 4⟩, by decide, by decide⟩,
    ⟨⟨8, 4⟩, ⟨-8, 0⟩, by decide, by decide⟩, ⟨⟨0, 1⟩, ⟨0, 0⟩, by decide, ?_⟩⟩
  rintro ⟨r, h1, h2, -, -⟩
  simp only [RlocInt.val] at h1
  omega

end Eud.Expr
