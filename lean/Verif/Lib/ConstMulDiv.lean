import Verif.Machine.Wp
import Verif.Machine.Mul
/-
C20, C21: multiplication and division by constants (core/calcf/muldiv.py:148-383).
-/

namespace Eud.SC

/-! ## Multiplication -/

/-- muldiv.py:201-214, the body of `_mulf`: `ret << 0`, then for each bit of `a` a trigger that adds `2**i * number`, unless that is a multiple
of `2**32`.  Numbers stored in an action are taken mod `2**32`. -/
def constMul (a ret n : Nat) : Stmt :=
  .seqs (.asg [⟨ret, .set, .const 0⟩] :: (((List.range 32).filter fun i => 2 ^ i * n % 2 ^ 32 ≠ 0).map fun i =>
    .trig [cMemX a .atLeast 1 (pow2 i)] [aMem ret .add (BitVec.ofNat 32 (2 ^ i * n))]))

/-- The bits of `a` in positions from the list, as a number. -/
def bitsum (a : W) (l : List Nat) : Nat := (l.map fun i => if a.getLsbD i then 2 ^ i else 0).sum

theorem bitsum_range (a : W) : ∀ n ≤ 32, bitsum a (List.range n) = a.toNat % 2 ^ n
  | 0, _ => by simp [bitsum]; omega
  | n + 1, h => by
    have ih := bitsum_range a n (by omega)
    rw [List.range_succ]
    have : bitsum a (List.range n ++ [n]) = bitsum a (List.range n) + if a.getLsbD n then 2 ^ n else 0 := by simp [bitsum]
    rw [this, ih, Nat.mod_pow_succ (b := 2)]
    congr 1
    rw [BitVec.getLsbD]
    rw [Nat.testBit_eq_decide_div_mod_eq]
    rcases Nat.mod_two_eq_zero_or_one (a.toNat / 2 ^ n) with h0 | h0 <;> simp [h0]

theorem bitsum_all (a : W) : bitsum a (List.range 32) = a.toNat := by
  rw [bitsum_range a 32 (by omega), Nat.mod_eq_of_lt a.isLt]

/-- **C20 (constant factors).** For every constant and every value, the result is the product mod `2**32`; only the result variable changes. -/
theorem C20_const {L : Layout} {a ret : Nat} (n : Nat) (ha : L.cell a) (hr : L.cell ret) (hne : a ≠ ret) (s : Mem) :
    Does L (constMul a ret n) s fun s' => s' ret = s a * BitVec.ofNat 32 n ∧ Only [ret] s s' := by
  refine Does.seq (Does.asg (by simpa using hr) (by simp) ?_)
  have key := Does.chain (L := L) (fun i => Stmt.trig [cMemX a .atLeast 1 (pow2 i)] [aMem ret .add (BitVec.ofNat 32 (2 ^ i * n))])
    (fun l s' => s' ret + BitVec.ofNat 32 (bitsum (s a) l * n) = BitVec.ofNat 32 (bitsum (s a) ((List.range 32).filter fun i => 2 ^ i * n % 2 ^ 32 ≠ 0) * n) ∧
      Only [ret] s s') ((List.range 32).filter fun i => 2 ^ i * n % 2 ^ 32 ≠ 0) (runAsg [⟨ret, .set, .const 0⟩] s) ?_ ?_
  · refine key.mono ?_
    rintro s' ⟨h1, h2⟩
    refine ⟨?_, h2⟩
    simp only [bitsum, List.map_nil, List.sum_nil, Nat.zero_mul, BitVec.add_zero] at h1
    rw [h1]
    -- the skipped products are 0
    have skip : ∀ l : List Nat, BitVec.ofNat 32 (bitsum (s a) (l.filter fun i => 2 ^ i * n % 2 ^ 32 ≠ 0) * n) = BitVec.ofNat 32 (bitsum (s a) l * n) := by
      intro l
      induction l with
      | nil => rfl
      | cons i l ih =>
        rw [List.filter_cons]
        have hcons : ∀ l, bitsum (s a) (i :: l) * n = (if (s a).getLsbD i then 2 ^ i else 0) * n + bitsum (s a) l * n := by
          intro l; simp only [bitsum, List.map_cons, List.sum_cons, Nat.add_mul]
        split
        · rw [hcons, hcons, BitVec.ofNat_add, BitVec.ofNat_add, ih]
        · rename_i hz
          rw [hcons, BitVec.ofNat_add, ih]
          have : BitVec.ofNat 32 ((if (s a).getLsbD i then 2 ^ i else 0) * n) = 0 := by
            apply BitVec.eq_of_toNat_eq
            rw [BitVec.toNat_ofNat]
            split
            · simpa using hz
            · simp
          rw [this]; simp
    have := skip (List.range 32)
    simp only [bitsum_all] at this
    refine this.trans ?_
    rw [BitVec.ofNat_mul, BitVec.ofNat_toNat, BitVec.setWidth_eq]
  · refine ⟨?_, (Only.refl _ _).set (by simp) _⟩
    simp [runAsg, arith, Src.valM, set_eq]
  · rintro i k s1 hi ⟨h1, h2⟩
    have hi : i < 32 := by simp at hi; omega
    have hsa : s1 a = s a := h2 a (by simpa using hne)
    have hcons : bitsum (s a) (i :: k) * n = (if (s a).getLsbD i then 2 ^ i else 0) * n + bitsum (s a) k * n := by
      simp only [bitsum, List.map_cons, List.sum_cons, Nat.add_mul]
    rw [hcons, BitVec.ofNat_add] at h1
    refine Does.trig (by simp; exact cMemX_ok ha _ _ _ _) ?_ ?_ <;>
      simp only [holdsAll_cons, holdsAll_nil, Bool.and_true, cMemX_holds, runPA_cons, runPA_nil, aMem_run, hsa, pow2_bit _ hi] <;> intro hb <;>
      simp only [hb, if_true, Bool.false_eq_true, if_false] at h1
    · refine ⟨actsOk_mem hr trivial, ?_, h2.set (by simp) _⟩
      rw [set_eq, arith, BitVec.add_assoc]
      exact h1
    · exact ⟨by simpa using h1, h2⟩

/-! ## Division -/

/-- muldiv.py:252-260 and 306-319: the triggers for `i = 31, …, 0` with `2**i * number < 2**32`. -/
def divTrigs (a q n j : Nat) : List Stmt := ((List.range j).reverse.filter fun i => 2 ^ i * n < 2 ^ 32).map fun i =>
  .trig [cMem a .atLeast (BitVec.ofNat 32 (2 ^ i * n))] [aMem a .sub (BitVec.ofNat 32 (2 ^ i * n)), aMem q .add (BitVec.ofNat 32 (2 ^ i))]

/-- muldiv.py:240-262, the body of `_divf` for a divisor that is not a power of two; also that of `_quotf` (muldiv.py:299-319), which does not
hand out the remainder. -/
def constDiv (a q n : Nat) : Stmt := .seqs (.asg [⟨q, .set, .const 0⟩] :: divTrigs a q n 32)

/-- muldiv.py:247-250 -/
def divTrigsPow (a q n j : Nat) : List Stmt := ((List.range j).reverse.filter fun i => 2 ^ i * n < 2 ^ 32).map fun i =>
  .trig [cMemX a .atLeast 1 (BitVec.ofNat 32 (2 ^ i * n))] [aMem q .add (BitVec.ofNat 32 (2 ^ i))]

/-- muldiv.py:240-262 for a power of two: in the end `a &= number - 1` (vbase.py, C17: the other bits are set to 0). -/
def constDivPow (a q n : Nat) : Stmt :=
  .seqs (.asg [⟨q, .set, .const 0⟩] :: (divTrigsPow a q n 32 ++ [.trig [] [aMemX a .set 0 (~~~ BitVec.ofNat 32 (n - 1))]]))

/-- muldiv.py:365-376, the body of `_remf` for a divisor that is not a power of two. -/
def constRem (a n : Nat) : Stmt := .seqs (((List.range 32).reverse.filter fun i => 2 ^ i * n < 2 ^ 32).map fun i =>
  .trig [cMem a .atLeast (BitVec.ofNat 32 (2 ^ i * n))] [aMem a .sub (BitVec.ofNat 32 (2 ^ i * n))])

theorem sub_of_le {a b : W} (h : b.toNat ≤ a.toNat) : (arith .sub a b).toNat = a.toNat - b.toNat := by
  simp only [arith]
  split <;> rename_i hh
  · exact absurd h (by simpa [BitVec.lt_def] using hh)
  · exact BitVec.toNat_sub_of_le h

/-- One step of long division. -/
theorem div_step {a n j : Nat} (hn : 0 < n) (h1 : 2 ^ j * n ≤ a) (h2 : a < 2 ^ (j + 1) * n) :
    a - 2 ^ j * n < 2 ^ j * n ∧ (a - 2 ^ j * n) % n = a % n ∧ a / n = 2 ^ j + (a - 2 ^ j * n) / n := by
  have e : 2 ^ (j + 1) * n = 2 ^ j * n + 2 ^ j * n := by rw [Nat.pow_succ, Nat.mul_two, Nat.add_mul]
  have ea : a = (a - 2 ^ j * n) + n * 2 ^ j := by rw [Nat.mul_comm n]; omega
  refine ⟨by omega, ?_, ?_⟩
  · conv => rhs; rw [ea, Nat.add_mul_mod_self_left]
  · conv => lhs; rw [ea, Nat.add_mul_div_left _ _ hn, Nat.add_comm]

theorem divTrigs_does {L : Layout} {a q n : Nat} (hn : 0 < n) (ha : L.cell a) (hq : L.cell q) (hne : a ≠ q) : ∀ (j : Nat) (s : Mem),
    (s a).toNat < 2 ^ j * n → Does L (.seqs (divTrigs a q n j)) s fun s' =>
      (s' a).toNat = (s a).toNat % n ∧ s' q = s q + BitVec.ofNat 32 ((s a).toNat / n) ∧ Only [a, q] s s'
  | 0, s, h => by
    refine Does.skip ⟨?_, ?_, Only.refl _ _⟩
    · rw [Nat.mod_eq_of_lt (by simpa using h)]
    · rw [Nat.div_eq_of_lt (by simpa using h)]; simp
  | j + 1, s, h => by
    have ih := divTrigs_does hn ha hq hne j
    unfold divTrigs at ih ⊢
    rw [List.range_succ, List.reverse_append, List.reverse_singleton, List.singleton_append, List.filter_cons]
    split
    · rename_i hlt
      simp only [decide_eq_true_eq] at hlt
      have hN : (BitVec.ofNat 32 (2 ^ j * n)).toNat = 2 ^ j * n := by rw [BitVec.toNat_ofNat, Nat.mod_eq_of_lt hlt]
      refine Does.seq (Does.trig (by simp; exact cMem_ok ha _ _ _) ?_ ?_) <;>
        simp only [holdsAll_cons, holdsAll_nil, Bool.and_true, cMem_holds, compare, decide_eq_true_eq, decide_eq_false_iff_not, runPA_cons, runPA_nil, aMem_run,
          BitVec.le_def, hN] <;> intro hc
      · obtain ⟨d1, d2, d3⟩ := div_step hn hc h
        have hsub : ((arith .sub (s a) (BitVec.ofNat 32 (2 ^ j * n)))).toNat = (s a).toNat - 2 ^ j * n := by rw [sub_of_le (by rw [hN]; exact hc), hN]
        refine ⟨actsOk_mem ha (actsOk_mem hq trivial), ?_⟩
        refine (ih _ ?_).mono ?_
        · rw [set_ne hne, set_eq, hsub]; exact d1
        · rintro s' ⟨e1, e2, e3⟩
          rw [set_ne hne, set_eq, hsub] at e1
          refine ⟨e1.trans d2, ?_, ?_⟩
          · rw [e2, set_ne hne (m := s.set a _), set_eq, set_eq, hsub, set_ne hne.symm, d3, BitVec.ofNat_add, arith, BitVec.add_assoc]
          · exact (((Only.refl _ _).set (by simp) _).set (by simp) _).trans e3
      · exact ih s (by omega)
    · rename_i hge
      simp only [decide_eq_true_eq, Nat.not_lt] at hge
      exact ih s (Nat.lt_of_lt_of_le (s a).isLt hge)

/-- **C21 (constant divisor).** For every divisor except 0, quotient and remainder are exact; nothing else changes. -/
theorem C21_const {L : Layout} {a q : Nat} (n : Nat) (hn : 0 < n) (ha : L.cell a) (hq : L.cell q) (hne : a ≠ q) (s : Mem) :
    Does L (constDiv a q n) s fun s' => (s' q).toNat = (s a).toNat / n ∧ (s' a).toNat = (s a).toNat % n ∧ Only [a, q] s s' := by
  refine Does.seq (Does.asg (by simpa using hq) (by simp) ?_)
  have h0 : runAsg [⟨q, .set, .const 0⟩] s = s.set q 0 := rfl
  rw [h0]
  refine (divTrigs_does hn ha hq hne 32 _ ?_).mono ?_
  · exact Nat.lt_of_lt_of_le (BitVec.isLt _) (Nat.le_mul_of_pos_right _ hn)
  · rintro s' ⟨e1, e2, e3⟩
    rw [set_ne hne] at e1 e2
    refine ⟨?_, e1, ((Only.refl _ _).set (by simp) _).trans e3⟩
    rw [e2, set_eq, show ∀ w : W, 0 + w = w from BitVec.zero_add, BitVec.toNat_ofNat, Nat.mod_eq_of_lt (Nat.lt_of_le_of_lt (Nat.div_le_self _ _) (BitVec.isLt _))]

theorem constRem_does {L : Layout} {a n : Nat} (hn : 0 < n) (ha : L.cell a) : ∀ (j : Nat) (s : Mem), (s a).toNat < 2 ^ j * n →
    Does L (.seqs (((List.range j).reverse.filter fun i => 2 ^ i * n < 2 ^ 32).map fun i =>
      .trig [cMem a .atLeast (BitVec.ofNat 32 (2 ^ i * n))] [aMem a .sub (BitVec.ofNat 32 (2 ^ i * n))])) s fun s' =>
      (s' a).toNat = (s a).toNat % n ∧ Only [a] s s'
  | 0, s, h => by
    refine Does.skip ⟨?_, Only.refl _ _⟩
    rw [Nat.mod_eq_of_lt (by simpa using h)]
  | j + 1, s, h => by
    have ih := constRem_does hn ha j
    rw [List.range_succ, List.reverse_append, List.reverse_singleton, List.singleton_append, List.filter_cons]
    split
    · rename_i hlt
      simp only [decide_eq_true_eq] at hlt
      have hN : (BitVec.ofNat 32 (2 ^ j * n)).toNat = 2 ^ j * n := by rw [BitVec.toNat_ofNat, Nat.mod_eq_of_lt hlt]
      refine Does.seq (Does.trig (by simp; exact cMem_ok ha _ _ _) ?_ ?_) <;>
        simp only [holdsAll_cons, holdsAll_nil, Bool.and_true, cMem_holds, compare, decide_eq_true_eq, decide_eq_false_iff_not, runPA_cons, runPA_nil, aMem_run,
          BitVec.le_def, hN] <;> intro hc
      · obtain ⟨d1, d2, -⟩ := div_step hn hc h
        have hsub : ((arith .sub (s a) (BitVec.ofNat 32 (2 ^ j * n)))).toNat = (s a).toNat - 2 ^ j * n := by rw [sub_of_le (by rw [hN]; exact hc), hN]
        refine ⟨actsOk_mem ha trivial, ?_⟩
        refine (ih _ ?_).mono ?_
        · rw [set_eq, hsub]; exact d1
        · rintro s' ⟨e1, e3⟩
          rw [set_eq, hsub] at e1
          exact ⟨e1.trans d2, ((Only.refl _ _).set (by simp) _).trans e3⟩
      · exact ih s (by omega)
    · rename_i hge
      simp only [decide_eq_true_eq, Nat.not_lt] at hge
      exact ih s (Nat.lt_of_lt_of_le (s a).isLt hge)

/-- **C21 (remainder by a constant).** -/
theorem C21_const_rem {L : Layout} {a : Nat} (n : Nat) (hn : 0 < n) (ha : L.cell a) (s : Mem) :
    Does L (constRem a n) s fun s' => (s' a).toNat = (s a).toNat % n ∧ Only [a] s s' :=
  constRem_does hn ha 32 s (Nat.lt_of_lt_of_le (BitVec.isLt _) (Nat.le_mul_of_pos_right _ hn))

theorem divTrigsPow_does {L : Layout} {a q k : Nat} (ha : L.cell a) (hq : L.cell q) (hne : a ≠ q) (w : W) : ∀ (j : Nat) (s : Mem), s a = w →
    s q = BitVec.ofNat 32 (w.toNat / 2 ^ (j + k) * 2 ^ j) → Does L (.seqs (divTrigsPow a q (2 ^ k) j)) s fun s' =>
      s' q = BitVec.ofNat 32 (w.toNat / 2 ^ k) ∧ Only [q] s s'
  | 0, s, _, h => Does.skip ⟨by simpa using h, Only.refl _ _⟩
  | j + 1, s, hw, h => by
    have ih := divTrigsPow_does (k := k) ha hq hne w j
    unfold divTrigsPow at ih ⊢
    rw [List.range_succ, List.reverse_append, List.reverse_singleton, List.singleton_append, List.filter_cons]
    -- one more bit of the quotient
    have hbit : w.toNat / 2 ^ (j + k) * 2 ^ j = w.toNat / 2 ^ (j + 1 + k) * 2 ^ (j + 1) + (if w.getLsbD (j + k) then 2 ^ j else 0) := by
      have e1 : w.toNat / 2 ^ (j + 1 + k) = w.toNat / 2 ^ (j + k) / 2 := by
        rw [show j + 1 + k = (j + k) + 1 from by omega, Nat.pow_succ, Nat.div_div_eq_div_mul]
      have e2 : w.getLsbD (j + k) = decide (w.toNat / 2 ^ (j + k) % 2 = 1) := by rw [BitVec.getLsbD, Nat.testBit_eq_decide_div_mod_eq]
      rw [e1, e2]
      have hd := Nat.div_add_mod (w.toNat / 2 ^ (j + k)) 2
      generalize w.toNat / 2 ^ (j + k) = d at hd ⊢
      rcases Nat.mod_two_eq_zero_or_one d with h0 | h0
      · simp only [h0, Nat.zero_ne_one, decide_false, Bool.false_eq_true, if_false, Nat.add_zero] at hd ⊢
        conv => lhs; rw [← hd]
        rw [Nat.pow_succ, Nat.mul_comm 2, Nat.mul_assoc, Nat.mul_comm 2]
      · simp only [h0, decide_true, if_true] at hd ⊢
        conv => lhs; rw [← hd]
        rw [Nat.pow_succ, Nat.add_mul, Nat.one_mul, Nat.mul_comm 2, Nat.mul_assoc, Nat.mul_comm 2]
    have hmul : 2 ^ j * 2 ^ k = 2 ^ (j + k) := (Nat.pow_add ..).symm
    split
    · rename_i hlt
      simp only [decide_eq_true_eq, hmul] at hlt
      have hjk : j + k < 32 := (Nat.pow_lt_pow_iff_right (by omega)).1 hlt
      have hp : BitVec.ofNat 32 (2 ^ j * 2 ^ k) = pow2 (j + k) := by
        rw [hmul]; apply BitVec.eq_of_toNat_eq
        rw [pow2, BitVec.toNat_twoPow, BitVec.toNat_ofNat]
      refine Does.seq (Does.trig (by simp; exact cMemX_ok ha _ _ _ _) ?_ ?_) <;>
        simp only [holdsAll_cons, holdsAll_nil, Bool.and_true, cMemX_holds, hp, pow2_bit _ hjk, hw, runPA_cons, runPA_nil, aMem_run] <;> intro hb
      · refine ⟨actsOk_mem hq trivial, ?_⟩
        refine (ih _ (by rw [set_ne hne, hw]) ?_).mono ?_
        · rw [set_eq, h, hbit, hb, if_pos rfl, arith, BitVec.ofNat_add]
        · rintro s' ⟨e1, e2⟩
          exact ⟨e1, ((Only.refl _ _).set (by simp) _).trans e2⟩
      · exact ih s hw (by rw [h, hbit, hb]; simp)
    · rename_i hge
      simp only [decide_eq_true_eq, Nat.not_lt, hmul] at hge
      refine ih s hw ?_
      rw [h, hbit]
      have hlt := Nat.lt_of_lt_of_le w.isLt hge
      have : w.getLsbD (j + k) = false := by rw [BitVec.getLsbD, Nat.testBit_lt_two_pow hlt]
      simp [this]

/-- **C21 (constant divisor, power of two).** -/
theorem C21_const_pow {L : Layout} {a q : Nat} (k : Nat) (ha : L.cell a) (hq : L.cell q) (hne : a ≠ q) (s : Mem) :
    Does L (constDivPow a q (2 ^ k)) s fun s' => (s' q).toNat = (s a).toNat / 2 ^ k ∧ (s' a).toNat = (s a).toNat % 2 ^ k ∧ Only [a, q] s s' := by
  refine Does.seq (Does.asg (by simpa using hq) (by simp) ?_)
  have h0 : runAsg [⟨q, .set, .const 0⟩] s = s.set q 0 := rfl
  rw [h0]
  apply Does.seqs_append
  refine (divTrigsPow_does ha hq hne (s a) 32 _ (set_ne hne) ?_).mono ?_
  · rw [set_eq, Nat.div_eq_of_lt]
    · simp
    · exact Nat.lt_of_lt_of_le (s a).isLt (Nat.pow_le_pow_right (by omega) (by omega))
  · rintro s1 ⟨e1, e2⟩
    refine Does.seq (Does.acts (actsOk_memX ha trivial) (Does.skip ?_))
    have hs1 : s1 a = s a := by rw [e2 a (by simpa using hne), set_ne hne]
    simp only [runPA_cons, runPA_nil, aMemX_run, hs1]
    refine ⟨?_, ?_, ?_⟩
    · rw [set_ne hne.symm, e1, BitVec.toNat_ofNat, Nat.mod_eq_of_lt (Nat.lt_of_le_of_lt (Nat.div_le_self _ _) (BitVec.isLt _))]
    · rw [set_eq]
      have : modify .set (s a) 0 (~~~ BitVec.ofNat 32 (2 ^ k - 1)) = s a &&& BitVec.ofNat 32 (2 ^ k - 1) := by
        have := set_and (s a) (BitVec.ofNat 32 (2 ^ k - 1))
        exact this
      rw [this, BitVec.toNat_and, BitVec.toNat_ofNat]
      by_cases hk : k < 32
      · have : 2 ^ k - 1 < 2 ^ 32 := Nat.lt_of_le_of_lt (Nat.sub_le _ _) (Nat.pow_lt_pow_right (by omega) hk)
        rw [Nat.mod_eq_of_lt this, Nat.and_two_pow_sub_one_eq_mod]
      · have hk' : (2 ^ k - 1) % 2 ^ 32 = 2 ^ 32 - 1 := by
          have : 2 ^ k = 2 ^ 32 * 2 ^ (k - 32) := by rw [← Nat.pow_add]; congr 1; omega
          have hp : 0 < 2 ^ (k - 32) := Nat.pow_pos (by omega)
          omega
        rw [hk', Nat.and_two_pow_sub_one_eq_mod, Nat.mod_eq_of_lt (s a).isLt, Nat.mod_eq_of_lt]
        exact Nat.lt_of_lt_of_le (s a).isLt (Nat.pow_le_pow_right (by omega) (by omega))
    · exact Only.set (((Only.refl _ _).set (by simp) _).trans (e2.mono (by simp))) (by simp) _

end Eud.SC
