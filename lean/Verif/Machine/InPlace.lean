import Verif.Machine.Prog
/-
C17, C18: in-place operations with constants (core/variable/vbase.py:78-173).

Each operation is one trigger whose actions all work on the dword that holds the value.
-/

namespace Eud.SC

/-- stockact.py:856-858 `SetMemory` (fixed fields) -/
def sMem (a : Nat) (md : Mod) (v : W) : SAct := ⟨some (.mem a), md, some v, some 0xFFFFFFFF⟩
/-- stockact.py:880-884 `SetMemoryX` (fixed fields) -/
def sMemX (a : Nat) (md : Mod) (v k : W) : SAct := ⟨some (.mem a), md, some v, some k⟩

@[simp] theorem sMem_apply (a : Nat) (md : Mod) (v : W) (m : Mem) (x : Nat) :
    (((sMem a md v).res m x).apply m) = m.set a (arith md (m a) v) := by
  simp only [sMem, SAct.res, Act.apply, Option.getD_some, Dst.addr, modify_full]

@[simp] theorem sMemX_apply (a : Nat) (md : Mod) (v k : W) (m : Mem) (x : Nat) :
    (((sMemX a md v k).res m x).apply m) = m.set a (modify md (m a) v k) := rfl

@[simp] theorem sMem_addr (a : Nat) (md : Mod) (v : W) (m m' : Mem) (x : Nat) :
    ((sMem a md v).res m x).dst.addr m' = a := rfl

@[simp] theorem sMemX_addr (a : Nat) (md : Mod) (v k : W) (m m' : Mem) (x : Nat) :
    ((sMemX a md v k).res m x).dst.addr m' = a := rfl

@[simp] theorem sMem_ready (a : Nat) (md : Mod) (v : W) (m : Mem) (x : Nat) : (sMem a md v).Ready m x :=
  fun h => by cases h

@[simp] theorem sMemX_ready (a : Nat) (md : Mod) (v k : W) (m : Mem) (x : Nat) : (sMemX a md v k).Ready m x :=
  fun h => by cases h

/-- One operation on a cell: modifier, value, mask. -/
abbrev COp := Mod × W × W

def COp.run (w : W) (c : COp) : W := modify c.1 w c.2.1 c.2.2

/-- Actions that all work on the cell at `a`. -/
def cellActs (a : Nat) (l : List COp) : List SAct := l.map (fun c => sMemX a c.1 c.2.1 c.2.2)

theorem runS_cell (a : Nat) : ∀ (l : List COp) (x : Nat) (m : Mem),
    runS (cellActs a l) x m = m.set a (l.foldl COp.run (m a))
  | [], _, m => by simp [cellActs, runS, set_self]
  | c :: l, x, m => by
    simp only [cellActs, List.map_cons, runS, sMemX_apply, List.foldl_cons]
    have := runS_cell a l (x + 32) (m.set a (modify c.1 (m a) c.2.1 c.2.2))
    simp only [cellActs] at this
    rw [this, set_eq]
    funext y
    unfold Mem.set
    split <;> simp_all [COp.run]

theorem acts_cell {P : Prog} {a : Nat} (h : P.data a) : ∀ (l : List COp) (x : Nat) (m : Mem),
    P.Acts (cellActs a l) x m
  | [], _, _ => trivial
  | c :: l, x, m => ⟨sMemX_ready _ _ _ _ _ _, by simp only [sMemX_addr]; exact h.okw _ _, by
      simp only [sMemX_apply]
      exact acts_cell h l _ _⟩

/-! ## Bit level facts -/

theorem modify_bit_set (x v k : W) (i : Nat) (hi : i < 32) :
    (modify .set x v k).getLsbD i = if k.getLsbD i then v.getLsbD i else x.getLsbD i := by
  simp only [modify, arith, BitVec.getLsbD_or, BitVec.getLsbD_and, BitVec.getLsbD_not, hi, decide_true,
    Bool.true_and]
  cases k.getLsbD i <;> simp

/-- Adding under a mask without adjacent bits is bitwise exclusive or under that mask. -/
theorem add_alt {M : W} (hM : ∀ i, i < 31 → M.getLsbD (i + 1) = true → M.getLsbD i = false) (x v : W) :
    modify .add x v M = x ^^^ (v &&& M) := by
  have hcarry : ∀ i, i < 32 → M.getLsbD i = true → BitVec.carry i (x &&& M) (v &&& M) false = false := by
    intro i hi hm
    cases i with
    | zero => simp [BitVec.carry_zero]
    | succ i =>
      rw [BitVec.carry_succ]
      have := hM i (by omega) hm
      simp [BitVec.getLsbD_and, this, Bool.atLeastTwo]
  apply BitVec.eq_of_getLsbD_eq
  intro i hi
  simp only [modify, arith, BitVec.getLsbD_or, BitVec.getLsbD_and, BitVec.getLsbD_not, hi, decide_true,
    Bool.true_and, BitVec.getLsbD_xor]
  rw [BitVec.getLsbD_add hi]
  cases hm : M.getLsbD i with
  | false => simp
  | true => simp [BitVec.getLsbD_and, hm, hcarry i hi hm]

theorem alt5 : ∀ i, i < 31 → (0x55555555 : W).getLsbD (i + 1) = true → (0x55555555 : W).getLsbD i = false := by
  decide

theorem altA : ∀ i, i < 31 → (0xAAAAAAAA : W).getLsbD (i + 1) = true → (0xAAAAAAAA : W).getLsbD i = false := by
  decide

theorem mask5A (v : W) : (v &&& 0x55555555) ^^^ (v &&& 0xAAAAAAAA) = v := by
  apply BitVec.eq_of_getLsbD_eq
  intro i hi
  have h : ∀ i, i < 32 → (0xAAAAAAAA : W).getLsbD i = !(0x55555555 : W).getLsbD i := by decide
  simp only [BitVec.getLsbD_xor, BitVec.getLsbD_and, h i hi]
  cases (0x55555555 : W).getLsbD i <;> simp

/-- The two-step addition computes exclusive or. -/
theorem xor_two (x v : W) : modify .add (modify .add x v 0x55555555) v 0xAAAAAAAA = x ^^^ v := by
  rw [add_alt altA, add_alt alt5, BitVec.xor_assoc, mask5A]

theorem set_or (x k : W) : modify .set x 0xFFFFFFFF k = x ||| k := by
  apply BitVec.eq_of_getLsbD_eq
  intro i hi
  rw [modify_bit_set _ _ _ _ hi, BitVec.getLsbD_or]
  have : ∀ i, i < 32 → (0xFFFFFFFF : W).getLsbD i = true := by decide
  rw [this i hi]
  cases k.getLsbD i <;> simp

theorem set_and (x k : W) : modify .set x 0 (~~~k) = x &&& k := by
  apply BitVec.eq_of_getLsbD_eq
  intro i hi
  rw [modify_bit_set _ _ _ _ hi, BitVec.getLsbD_and, BitVec.getLsbD_not]
  simp only [hi, decide_true, Bool.true_and]
  cases k.getLsbD i <;> simp

theorem xor_ones (x : W) : x ^^^ 0xFFFFFFFF = ~~~x := by
  have : (0xFFFFFFFF : W) = BitVec.allOnes 32 := by decide
  rw [this, BitVec.xor_allOnes]

theorem neg_eq (x : W) : ~~~x + 1 = -x := by
  rw [BitVec.neg_eq_not_add]
  rfl

/-! ## Fields -/

/-- `((1 << n) - 1) << t` as a 32-bit number. -/
def fld (n t : Nat) : W := BitVec.ofNat 32 ((2 ^ n - 1) <<< t)

theorem fld_bit (n t i : Nat) (hi : i < 32) : (fld n t).getLsbD i = (decide (t ≤ i) && decide (i < t + n)) := by
  unfold fld
  rw [BitVec.getLsbD_ofNat, Nat.testBit_shiftLeft, Nat.testBit_two_pow_sub_one]
  simp only [hi, decide_true, Bool.true_and]
  by_cases h : t ≤ i
  · simp only [h, decide_true, Bool.true_and]
    congr 1
    apply propext
    omega
  · simp [h]

theorem fld_toNat (n t : Nat) (h : n + t ≤ 32) : (fld n t).toNat = 2 ^ (t + n) - 2 ^ t := by
  unfold fld
  rw [BitVec.toNat_ofNat, Nat.shiftLeft_eq, Nat.sub_mul, Nat.one_mul, ← Nat.pow_add, Nat.add_comm n t]
  apply Nat.mod_eq_of_lt
  have : 2 ^ (t + n) ≤ 2 ^ 32 := Nat.pow_le_pow_right (by omega) (by omega)
  have : 0 < 2 ^ t := Nat.pow_pos (by omega)
  omega

theorem fld_and (n t : Nat) : fld n t &&& fld (n + 1) t = fld n t := by
  apply BitVec.eq_of_getLsbD_eq
  intro i hi
  rw [BitVec.getLsbD_and, fld_bit _ _ _ hi, fld_bit _ _ _ hi]
  by_cases h : i < t + n
  · simp [h, show i < t + (n + 1) by omega]
  · simp [h]

theorem twoPow_bit (t i : Nat) (hi : i < 32) : (BitVec.twoPow 32 t).getLsbD i = decide (t = i) := by
  rw [BitVec.getLsbD_twoPow]
  by_cases h : t = i
  · subst h; simp [hi]
  · simp [h]

/-- A field whose upper bits are clear: adding ones carries the lowest bit to the top. -/
theorem add_field {x : W} {n t : Nat} (hn : t + n < 32) (hz : ∀ i, t < i → i ≤ t + n → x.getLsbD i = false)
    (i : Nat) (hi : i < 32) :
    (modify .add x (fld n t) (fld (n + 1) t)).getLsbD i =
      if t ≤ i ∧ i < t + n then !x.getLsbD t else if i = t + n then x.getLsbD t else x.getLsbD i := by
  have hp : (2 : Nat) ^ t < 2 ^ 32 := Nat.pow_lt_pow_right (by omega) (by omega)
  have hpn : (2 : Nat) ^ (t + n) < 2 ^ 32 := Nat.pow_lt_pow_right (by omega) (by omega)
  have hle : (2 : Nat) ^ t ≤ 2 ^ (t + n) := Nat.pow_le_pow_right (by omega) (by omega)
  simp only [modify, arith, fld_and]
  have hmaskbit := fld_bit (n + 1) t i hi
  cases hb : x.getLsbD t with
  | true =>
    have hx : x &&& fld (n + 1) t = BitVec.twoPow 32 t := by
      apply BitVec.eq_of_getLsbD_eq
      intro j hj
      rw [BitVec.getLsbD_and, fld_bit _ _ _ hj, twoPow_bit _ _ hj]
      by_cases h1 : t = j
      · subst h1; simp [hb]
      · by_cases h2 : t < j ∧ j ≤ t + n
        · simp [hz j h2.1 h2.2, h1]
        · simp only [h1, decide_false]
          by_cases h3 : t ≤ j
          · simp [show ¬ j < t + (n + 1) by omega]
          · simp [h3]
    have hsum : BitVec.twoPow 32 t + fld n t = BitVec.twoPow 32 (t + n) := by
      apply BitVec.eq_of_toNat_eq
      rw [BitVec.toNat_add, BitVec.toNat_twoPow, BitVec.toNat_twoPow, fld_toNat n t (by omega),
        Nat.mod_eq_of_lt hp, Nat.mod_eq_of_lt hpn, Nat.mod_eq_of_lt (by omega)]
      omega
    rw [hx, hsum, BitVec.getLsbD_or, BitVec.getLsbD_and, BitVec.getLsbD_and, BitVec.getLsbD_not, hmaskbit,
      twoPow_bit _ _ hi]
    simp only [hi, decide_true, Bool.true_and, Bool.not_true]
    by_cases h1 : t ≤ i ∧ i < t + n
    · rw [if_pos h1]
      simp [h1.1, show i < t + (n + 1) by omega]
      omega
    · rw [if_neg h1]
      by_cases h2 : i = t + n
      · rw [if_pos h2]; simp [h2]
      · rw [if_neg h2]
        have : ¬ (t ≤ i ∧ i < t + (n + 1)) := by omega
        have hd : (decide (t ≤ i) && decide (i < t + (n + 1))) = false := by
          rw [Bool.and_eq_false_iff]; simp only [decide_eq_false_iff_not]; omega
        simp [hd]
  | false =>
    have hx : x &&& fld (n + 1) t = 0#32 := by
      apply BitVec.eq_of_getLsbD_eq
      intro j hj
      rw [BitVec.getLsbD_and, fld_bit _ _ _ hj, BitVec.getLsbD_zero]
      by_cases h1 : t = j
      · subst h1; simp [hb]
      · by_cases h2 : t < j ∧ j ≤ t + n
        · simp [hz j h2.1 h2.2]
        · by_cases h3 : t ≤ j
          · simp [show ¬ j < t + (n + 1) by omega]
          · simp [h3]
    rw [hx, BitVec.zero_add, fld_and, BitVec.getLsbD_or, BitVec.getLsbD_and, BitVec.getLsbD_not, hmaskbit,
      fld_bit _ _ _ hi]
    simp only [hi, decide_true, Bool.true_and, Bool.not_false]
    by_cases h1 : t ≤ i ∧ i < t + n
    · rw [if_pos h1]
      simp [h1.1, h1.2]
    · rw [if_neg h1]
      by_cases h2 : i = t + n
      · rw [if_pos h2]; simp [h2]
      · rw [if_neg h2]
        have hd : (decide (t ≤ i) && decide (i < t + (n + 1))) = false := by
          rw [Bool.and_eq_false_iff]; simp only [decide_eq_false_iff_not]; omega
        have hd2 : (decide (t ≤ i) && decide (i < t + n)) = false := by
          rw [Bool.and_eq_false_iff]; simp only [decide_eq_false_iff_not]; omega
        simp [hd, hd2]

/-- A field whose lower bits are clear: subtracting ones moves the top bit to the bottom. -/
theorem sub_field {x : W} {n t : Nat} (hn : t + n < 32) (hz : ∀ i, t ≤ i → i < t + n → x.getLsbD i = false)
    (i : Nat) (hi : i < 32) :
    (modify .sub x (fld n t) (fld (n + 1) t)).getLsbD i =
      if i = t then x.getLsbD (t + n) else if t < i ∧ i ≤ t + n then false else x.getLsbD i := by
  have hp : (2 : Nat) ^ t < 2 ^ 32 := Nat.pow_lt_pow_right (by omega) (by omega)
  have hpn : (2 : Nat) ^ (t + n) < 2 ^ 32 := Nat.pow_lt_pow_right (by omega) (by omega)
  have hle : (2 : Nat) ^ t ≤ 2 ^ (t + n) := Nat.pow_le_pow_right (by omega) (by omega)
  have hpos : 0 < (2 : Nat) ^ t := Nat.pow_pos (by omega)
  simp only [modify, arith, fld_and]
  have hmaskbit := fld_bit (n + 1) t i hi
  cases hb : x.getLsbD (t + n) with
  | true =>
    have hx : x &&& fld (n + 1) t = BitVec.twoPow 32 (t + n) := by
      apply BitVec.eq_of_getLsbD_eq
      intro j hj
      rw [BitVec.getLsbD_and, fld_bit _ _ _ hj, twoPow_bit _ _ hj]
      by_cases h1 : t + n = j
      · subst h1; simp [hb]
      · by_cases h2 : t ≤ j ∧ j < t + n
        · simp [hz j h2.1 h2.2, h1]
        · simp only [h1, decide_false]
          by_cases h3 : t ≤ j
          · simp [show ¬ j < t + (n + 1) by omega]
          · simp [h3]
    have hnl : ¬ BitVec.twoPow 32 (t + n) < fld n t := by
      rw [BitVec.lt_def, BitVec.toNat_twoPow, fld_toNat n t (by omega), Nat.mod_eq_of_lt hpn]
      omega
    have hsub : BitVec.twoPow 32 (t + n) - fld n t = BitVec.twoPow 32 t := by
      apply BitVec.eq_of_toNat_eq
      rw [BitVec.toNat_sub, BitVec.toNat_twoPow, BitVec.toNat_twoPow, fld_toNat n t (by omega),
        Nat.mod_eq_of_lt hp, Nat.mod_eq_of_lt hpn]
      omega
    rw [hx, if_neg hnl, hsub, BitVec.getLsbD_or, BitVec.getLsbD_and, BitVec.getLsbD_and, BitVec.getLsbD_not,
      hmaskbit, twoPow_bit _ _ hi]
    simp only [hi, decide_true, Bool.true_and]
    by_cases h1 : i = t
    · rw [if_pos h1]; subst h1; simp
    · rw [if_neg h1]
      by_cases h2 : t < i ∧ i ≤ t + n
      · rw [if_pos h2]
        simp [show t ≤ i by omega, show i < t + (n + 1) by omega, show ¬ t = i by omega]
      · rw [if_neg h2]
        have hd : (decide (t ≤ i) && decide (i < t + (n + 1))) = false := by
          rw [Bool.and_eq_false_iff]; simp only [decide_eq_false_iff_not]; omega
        simp [hd]
  | false =>
    have hx : x &&& fld (n + 1) t = 0#32 := by
      apply BitVec.eq_of_getLsbD_eq
      intro j hj
      rw [BitVec.getLsbD_and, fld_bit _ _ _ hj, BitVec.getLsbD_zero]
      by_cases h1 : t + n = j
      · subst h1; simp [hb]
      · by_cases h2 : t ≤ j ∧ j < t + n
        · simp [hz j h2.1 h2.2]
        · by_cases h3 : t ≤ j
          · simp [show ¬ j < t + (n + 1) by omega]
          · simp [h3]
    have hz0 : (if (0#32 : W) < fld n t then (0 : W) else 0#32 - fld n t) = 0#32 := by
      split
      · rfl
      · rename_i h
        have : fld n t = 0#32 := by
          apply BitVec.eq_of_toNat_eq
          rw [BitVec.lt_def] at h
          simp at h ⊢
          omega
        rw [this]; rfl
    rw [hx, hz0, BitVec.zero_and, BitVec.or_zero, BitVec.getLsbD_and, BitVec.getLsbD_not, hmaskbit]
    simp only [hi, decide_true, Bool.true_and]
    by_cases h1 : i = t
    · rw [if_pos h1]; subst h1; simp
    · rw [if_neg h1]
      by_cases h2 : t < i ∧ i ≤ t + n
      · rw [if_pos h2]
        simp [show t ≤ i by omega, show i < t + (n + 1) by omega]
      · rw [if_neg h2]
        have hd : (decide (t ≤ i) && decide (i < t + (n + 1))) = false := by
          rw [Bool.and_eq_false_iff]; simp only [decide_eq_false_iff_not]; omega
        simp [hd]

/-! ## Shifts -/

/-- vbase.py:149-153: the steps for `t = k-1, ..., 0`. -/
def shlSteps (n : Nat) : Nat → List COp
  | 0 => []
  | t + 1 => (.set, 0, fld n (t + 1)) :: (.add, fld n t, fld (n + 1) t) :: shlSteps n t

/-- vbase.py:157-165 `__ilshift__` -/
def shlOps (n : Nat) : List COp := shlSteps n (32 - n) ++ [(.set, 0, fld n 0)]

/-- vbase.py:161-163: the steps for `t = s, ..., s+k-1`. -/
def shrSteps (n : Nat) : Nat → Nat → List COp
  | _, 0 => []
  | s, k + 1 => (.sub, fld n s, fld (n + 1) s) :: shrSteps n (s + 1) k

/-- vbase.py:167-174 `__irshift__` -/
def shrOps (n : Nat) : List COp := (.set, 0, fld n 0) :: shrSteps n 0 (32 - n)

theorem set0_bit (x : W) (n t i : Nat) (hi : i < 32) :
    (modify .set x 0 (fld n t)).getLsbD i = if t ≤ i ∧ i < t + n then false else x.getLsbD i := by
  rw [modify_bit_set _ _ _ _ hi, fld_bit _ _ _ hi]
  by_cases h : t ≤ i ∧ i < t + n
  · rw [if_pos h]; simp [h.1, h.2]
  · rw [if_neg h]
    have hd : (decide (t ≤ i) && decide (i < t + n)) = false := by
      rw [Bool.and_eq_false_iff]; simp only [decide_eq_false_iff_not]; omega
    simp [hd]

theorem shlSteps_spec (n : Nat) (x0 : W) : ∀ (k : Nat) (x : W), k + n ≤ 32 →
    (∀ i, i < k → x.getLsbD i = x0.getLsbD i) →
    (∀ i, k + n ≤ i → i < 32 → x.getLsbD i = x0.getLsbD (i - n)) →
    ∀ i, n ≤ i → i < 32 → ((shlSteps n k).foldl COp.run x).getLsbD i = x0.getLsbD (i - n)
  | 0, x, _, _, h2, i, hn, hi => by
    simp only [shlSteps, List.foldl_nil]
    exact h2 i (by omega) hi
  | t + 1, x, hk, h1, h2, i, hn, hi => by
    simp only [shlSteps, List.foldl_cons, COp.run]
    have hset := fun j hj => set0_bit x n (t + 1) j hj
    have hadd := fun j hj => add_field (x := modify .set x 0 (fld n (t + 1))) (n := n) (t := t) (by omega)
      (by
        intro j a b
        rw [hset j (by omega), if_pos (by omega)]) j hj
    apply shlSteps_spec n x0 t _ (by omega) _ _ i hn hi
    · intro j hj
      rw [hadd j (by omega), if_neg (by omega), if_neg (by omega), hset j (by omega), if_neg (by omega)]
      exact h1 j (by omega)
    · intro j a b
      rw [hadd j b, if_neg (by omega)]
      by_cases e : j = t + n
      · rw [if_pos e, hset t (by omega), if_neg (by omega), h1 t (by omega), e]
        congr 1
        omega
      · rw [if_neg e, hset j b, if_neg (by omega)]
        exact h2 j (by omega) b

theorem shlOps_spec {n : Nat} (hn : n ≤ 32) (x : W) : (shlOps n).foldl COp.run x = x <<< n := by
  unfold shlOps
  rw [List.foldl_append]
  simp only [List.foldl_cons, List.foldl_nil, COp.run]
  apply BitVec.eq_of_getLsbD_eq
  intro i hi
  rw [set0_bit _ _ _ _ hi, BitVec.getLsbD_shiftLeft]
  simp only [hi, decide_true, Bool.true_and]
  by_cases h : i < n
  · rw [if_pos (by omega)]; simp [h]
  · rw [if_neg (by omega)]
    simp only [h, decide_false, Bool.not_false, Bool.true_and]
    exact shlSteps_spec n x (32 - n) x (by omega) (fun _ _ => rfl) (fun j a b => by omega) i (by omega) hi

theorem shrSteps_spec (n : Nat) (x0 : W) : ∀ (k s : Nat) (x : W), s + k + n = 32 →
    (∀ i, i < s → x.getLsbD i = x0.getLsbD (i + n)) →
    (∀ i, s ≤ i → i < s + n → x.getLsbD i = false) →
    (∀ i, s + n ≤ i → i < 32 → x.getLsbD i = x0.getLsbD i) →
    ∀ i, i < 32 → ((shrSteps n s k).foldl COp.run x).getLsbD i = if i < 32 - n then x0.getLsbD (i + n) else false
  | 0, s, x, hs, h1, h2, _, i, hi => by
    simp only [shrSteps, List.foldl_nil]
    by_cases h : i < 32 - n
    · rw [if_pos h]; exact h1 i (by omega)
    · rw [if_neg h]; exact h2 i (by omega) (by omega)
  | k + 1, s, x, hs, h1, h2, h3, i, hi => by
    simp only [shrSteps, List.foldl_cons, COp.run]
    have hsub := fun j hj => sub_field (x := x) (n := n) (t := s) (by omega) h2 j hj
    apply shrSteps_spec n x0 k (s + 1) _ (by omega) _ _ _ i hi
    · intro j hj
      rw [hsub j (by omega)]
      by_cases e : j = s
      · rw [if_pos e, h3 _ (by omega) (by omega), e]
      · rw [if_neg e, if_neg (by omega)]; exact h1 j (by omega)
    · intro j a b
      rw [hsub j (by omega), if_neg (by omega), if_pos (by omega)]
    · intro j a b
      rw [hsub j b, if_neg (by omega), if_neg (by omega)]
      exact h3 j (by omega) b

theorem shrOps_spec {n : Nat} (hn : n ≤ 32) (x : W) : (shrOps n).foldl COp.run x = x >>> n := by
  unfold shrOps
  simp only [List.foldl_cons, COp.run]
  apply BitVec.eq_of_getLsbD_eq
  intro i hi
  rw [BitVec.getLsbD_ushiftRight]
  rw [shrSteps_spec n x (32 - n) 0 _ (by omega) (by intro j h; omega)
    (by
      intro j _ b
      rw [set0_bit _ _ _ _ (by omega), if_pos (by omega)])
    (by
      intro j a b
      rw [set0_bit _ _ _ _ b, if_neg (by omega)]) i hi]
  split
  · rw [Nat.add_comm]
  · rw [BitVec.getLsbD_of_ge _ _ (by omega)]

theorem shlSteps_length (n : Nat) : ∀ k, (shlSteps n k).length = 2 * k
  | 0 => rfl
  | k + 1 => by simp only [shlSteps, List.length_cons, shlSteps_length n k]; omega

theorem shrSteps_length (n : Nat) : ∀ k s, (shrSteps n s k).length = k
  | 0, _ => rfl
  | k + 1, s => by simp only [shrSteps, List.length_cons, shrSteps_length n k]

/-! ## Operations -/

/-- In-place operations with a constant. -/
inductive IOp
  | assign (k : W) | add (k : W) | sub (k : W) | subSat (k : W)
  | or (k : W) | and (k : W) | xor (k : W) | invert | neg | shl (n : Nat) | shr (n : Nat)

/-- What the library emits.
`assign` vbase.py:78-80, `add` 85-87, `sub` eudv.py:263-265 (`EUDVariable` adds `-k`),
`subSat` vbase.py:89-91 (`EUDLightVariable`), `or` 97-99, `and` 101-103 (integer operand),
`xor` 116-123, `invert` 125-127, `neg` 137-147, shifts 158-179. -/
def IOp.code : IOp → List COp
  | .assign k => [(.set, k, 0xFFFFFFFF)]
  | .add k => [(.add, k, 0xFFFFFFFF)]
  | .sub k => [(.add, -k, 0xFFFFFFFF)]
  | .subSat k => [(.sub, k, 0xFFFFFFFF)]
  | .or k => [(.set, 0xFFFFFFFF, k)]
  | .and k => [(.set, 0, ~~~k)]
  | .xor k => [(.add, k, 0x55555555), (.add, k, 0xAAAAAAAA)]
  | .invert => [(.add, 0xFFFFFFFF, 0x55555555), (.add, 0xFFFFFFFF, 0xAAAAAAAA)]
  | .neg => [(.add, 0xFFFFFFFF, 0x55555555), (.add, 0xFFFFFFFF, 0xAAAAAAAA), (.add, 1, 0xFFFFFFFF)]
  | .shl n => shlOps n
  | .shr n => shrOps n

/-- What the operation means on 32-bit numbers. -/
def IOp.spec (x : W) : IOp → W
  | .assign k => k
  | .add k => x + k
  | .sub k => x - k
  | .subSat k => if x < k then 0 else x - k
  | .or k => x ||| k
  | .and k => x &&& k
  | .xor k => x ^^^ k
  | .invert => ~~~x
  | .neg => -x
  | .shl n => x <<< n
  | .shr n => x >>> n

/-- Shift amounts for which the trigger fits (see `C18_lshift0_counterexample`). -/
def IOp.Fits : IOp → Prop
  | .shl n => 1 ≤ n ∧ n ≤ 32
  | .shr n => n ≤ 32
  | _ => True

theorem IOp.code_spec (o : IOp) (h : o.Fits) (x : W) : o.code.foldl COp.run x = o.spec x := by
  cases o with
  | assign k => simp only [IOp.code, IOp.spec, COp.run, List.foldl_cons, List.foldl_nil, modify_full, arith]
  | add k => simp only [IOp.code, IOp.spec, COp.run, List.foldl_cons, List.foldl_nil, modify_full, arith]
  | sub k =>
    simp only [IOp.code, IOp.spec, COp.run, List.foldl_cons, List.foldl_nil, modify_full, arith,
      BitVec.sub_eq_add_neg]
  | subSat k => simp only [IOp.code, IOp.spec, COp.run, List.foldl_cons, List.foldl_nil, modify_full, arith]
  | or k => simp only [IOp.code, IOp.spec, COp.run, List.foldl_cons, List.foldl_nil, set_or]
  | and k => simp only [IOp.code, IOp.spec, COp.run, List.foldl_cons, List.foldl_nil, set_and]
  | xor k => simp only [IOp.code, IOp.spec, COp.run, List.foldl_cons, List.foldl_nil, xor_two]
  | invert => simp only [IOp.code, IOp.spec, COp.run, List.foldl_cons, List.foldl_nil, xor_two, xor_ones]
  | neg =>
    simp only [IOp.code, IOp.spec, COp.run, List.foldl_cons, List.foldl_nil, xor_two, xor_ones, modify_full,
      arith, neg_eq]
  | shl n => exact shlOps_spec h.2 x
  | shr n => exact shrOps_spec h x

theorem IOp.code_length (o : IOp) (h : o.Fits) : o.code.length ≤ 64 := by
  cases o with
  | shl n =>
    have := h.1
    simp only [IOp.code, shlOps, List.length_append, shlSteps_length, List.length_cons, List.length_nil]
    omega
  | shr n =>
    simp only [IOp.code, shrOps, List.length_cons, shrSteps_length]
    omega
  | _ => simp [IOp.code]

/-- The trigger emitted for an operation on the value at address `a`. -/
def IOp.trig (o : IOp) (a : Nat) : STrig := ⟨[], cellActs a o.code⟩

/-- **C17, C18.** In every program, executing the trigger of an in-place operation with a constant
replaces the value by the result of the operation on 32-bit numbers, changes no other dword, and
continues with the next trigger. -/
theorem C17_inplace {P : Prog} {m : Mem} (h : P.In m) {o : IOp} (hf : o.Fits) {a : Nat} (ha : P.data a)
    {b : SBlk} (hb : b ∈ P.blks) (ho : b.once = false) (hT : b.T = o.trig a) {n : Nat} (hn : b.next = some n) :
    step ⟨m, b.t⟩ = some ⟨m.set a (o.spec (m a)), n⟩ ∧ P.In (m.set a (o.spec (m a))) := by
  have he : b.exec m = m.set a (o.spec (m a)) := by
    unfold SBlk.exec
    rw [hT]
    simp only [IOp.trig, condsS, if_true]
    rw [runS_cell, o.code_spec hf]
  have := h.step_next hb ho hn (by rw [hT]; trivial) (fun _ => by rw [hT]; exact acts_cell ha _ _ _)
  rw [he] at this
  exact this

/-- A condition on the dword at `a`, with fixed fields. -/
def sChk (a : Nat) (c : Cmp) (v k : W) : SCnd := .check (some (.mem a)) c (some v) (some k)

@[simp] theorem sChk_res (a : Nat) (c : Cmp) (v k : W) (m : Mem) (x : Nat) :
    ((sChk a c v k).res m x).holds m = compare c (m a &&& k) v := rfl

@[simp] theorem sChk_ready (a : Nat) (c : Cmp) (v k : W) (m : Mem) (x : Nat) : (sChk a c v k).Ready m x :=
  trivial

/-- vbase.py:149-156 `iabs` -/
def absTrig (a : Nat) : STrig := ⟨[sChk a .atLeast 0x80000000 0xFFFFFFFF], cellActs a IOp.neg.code⟩

/-- **C17 (absolute value).** Negative numbers are negated, others are kept; the one number
without an absolute value, `0x80000000`, is kept as well. -/
theorem C17_abs {P : Prog} {m : Mem} (h : P.In m) {a : Nat} (ha : P.data a)
    {b : SBlk} (hb : b ∈ P.blks) (ho : b.once = false) (hT : b.T = absTrig a) {n : Nat} (hn : b.next = some n) :
    step ⟨m, b.t⟩ = some ⟨m.set a (BitVec.ofInt 32 (m a).toInt.natAbs), n⟩ ∧
      P.In (m.set a (BitVec.ofInt 32 (m a).toInt.natAbs)) := by
  have he : b.exec m = m.set a (BitVec.ofInt 32 (m a).toInt.natAbs) := by
    have h8 : (0x80000000 : W).toNat = 2 ^ 31 := by decide
    have hlt := (m a).isLt
    unfold SBlk.exec
    rw [hT]
    simp only [absTrig, condsS, sChk_res, Bool.and_true, and_ones, compare]
    have hti := BitVec.toInt_eq_toNat_cond (m a)
    by_cases hc : 0x80000000 ≤ m a
    · rw [if_pos (by simpa using hc), runS_cell, IOp.code_spec .neg trivial]
      congr 1
      apply BitVec.eq_of_toNat_eq
      rw [BitVec.le_def, h8] at hc
      simp only [IOp.spec]
      rw [BitVec.toNat_neg, BitVec.toNat_ofInt]
      rw [if_neg (by omega)] at hti
      omega
    · rw [if_neg (by simpa using hc)]
      rw [BitVec.le_def, h8] at hc
      rw [if_pos (by omega)] at hti
      rw [hti, Int.natAbs_natCast]
      have : BitVec.ofInt 32 ((m a).toNat : Int) = m a := by
        apply BitVec.eq_of_toNat_eq
        rw [BitVec.toNat_ofInt]
        omega
      rw [this, set_self]
  have := h.step_next hb ho hn (by rw [hT]; exact ⟨trivial, trivial⟩)
    (fun _ => by rw [hT]; exact acts_cell ha _ _ _)
  rw [he] at this
  exact this

/-- **C18, where it fails.** Shifting left by 0 needs 65 actions, more than a trigger can
hold (`__ilshift__` then raises an error at compile time, rawtriggerdef.py:136). -/
theorem C18_lshift0_counterexample (a : Nat) : ((IOp.shl 0).trig a).acts.length = 65 := by
  simp [IOp.trig, cellActs, IOp.code, shlOps, shlSteps_length]

/-! ## Example: all hypotheses hold in a concrete memory -/

namespace Ex17

def p : Nat := 0x1000000
def o : IOp := .shl 7
def b : SBlk := ⟨0x2000000, o.trig (p + 344), some 0x2001000, false⟩
def P : Prog := ⟨[b], [], [p - 4]⟩

theorem laid : P.Laid p [0x12345678] := by
  refine ⟨rfl, by decide, by decide, by decide, by decide, ?_, by simp [P], by simp [P], by simp [P], by simp [P],
    ?_, by simp [P]⟩
  · intro c hc
    simp only [P, List.mem_singleton] at hc
    subst hc
    refine ⟨by decide, by decide +kernel, by simp [b, IOp.trig], ?_, by simp [b]⟩
    intro a ha d hd
    simp only [b, IOp.trig, cellActs, List.mem_map] at ha
    obtain ⟨c, -, rfl⟩ := ha
    simp only [sMemX, Option.some.injEq] at hd
    subst hd
    simp only [Dst.Valid]; decide
  · intro c hc
    simp only [P, List.mem_singleton] at hc
    subst hc
    decide

/-- `v <<= 7` turns `0x12345678` into `0x1A2B3C00`. -/
example : step ⟨P.mem (fun _ => 0) p [0x12345678], 0x2000000⟩ =
    some ⟨(P.mem (fun _ => 0) p [0x12345678]).set (p + 344) 0x1A2B3C00, 0x2001000⟩ := by
  obtain ⟨h1, h2, -, h4⟩ := laid.ok (fun _ => 0)
  have hd : P.data (p + 344) := h2.data (v := p - 4) (o := 348) (by simp [P]) (by simp)
  have := (C17_inplace h1 (o := o) (by unfold IOp.Fits o; omega) hd (b := b) (by simp [P]) rfl rfl rfl).1
  have hv : P.mem (fun _ => 0) p [0x12345678] (p + 344) = 0x12345678 := h4 0 (by decide)
  rw [hv] at this
  exact this

end Ex17

end Eud.SC
