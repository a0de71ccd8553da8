import Verif.Machine.Basic
/-
C16: negation of conditions (src/eudplib/core/rawtrigger/condition.py `Condition.negate`, src/eudplib/trigger/tpatcher.py
`is_nagatable_cond`).  Only conditions whose fields are all numbers are modelled.
-/

namespace Eud.SC

/-- condition.py:72-100, the fields that are numbers.  `locid` is the mask of a masked `Deaths` condition. -/
structure CondF where
  locid : Int
  player : Int
  amount : Int
  unitid : Nat
  comparison : Nat
  condtype : Nat
  restype : Nat
  flags : Nat
  eudx : Nat

def comparisonSet : List Nat := [1, 2, 3, 4, 5, 12, 14, 15, 21]

/-- `x & 0xFFFFFFFF` -/
def u32 (x : Int) : Nat := (x % 2 ^ 32).toNat

/-- condition.py:190-251 `negate`; `none` is an exception (the fields are unchanged then). -/
def CondF.negate (c : CondF) : Option CondF :=
  if c.condtype = 0 ∨ c.condtype = 22 then some { c with condtype := 23 }
  else if c.condtype = 13 ∨ c.condtype = 23 then some { c with condtype := 22 }
  else if c.condtype = 11 then some { c with comparison := c.comparison ^^^ 1 }
  else if c.condtype ∈ comparisonSet then
    if c.comparison = 10 ∧ u32 c.amount = 0 then some { c with comparison := 0, amount := 1 }
    else if c.comparison = 0 ∧ u32 c.amount = 1 then some { c with comparison := 10, amount := 0 }
    else if c.comparison = 0 ∧ u32 c.amount = 0 then some { c with condtype := 23 }
    else if c.condtype = 2 ∨ c.condtype = 3 then none
    else if c.comparison = 0 ∨ c.comparison = 1 then
      some { c with comparison := c.comparison ^^^ 1, amount := c.amount + -((-1) ^ c.comparison) }
    else if c.comparison ≠ 10 then none
    else if c.condtype = 15 ∧ c.eudx = 0x4353 then
      -- `amount & (~mask)`
      if BitVec.ofNat 32 (u32 c.amount) &&& ~~~ BitVec.ofNat 32 (u32 c.locid) ≠ 0 then some { c with condtype := 23 }
      else if u32 c.amount = u32 c.locid then some { c with comparison := 1, amount := (u32 c.locid : Int) - 1 }
      else none
    else if u32 c.amount = 0xFFFFFFFF then some { c with comparison := 1, amount := 0xFFFFFFFE }
    else none
  else none

/-- tpatcher.py:170-231 `is_nagatable_cond` on such a condition. -/
def CondF.negatable (c : CondF) : Bool :=
  if c.condtype = 0 ∨ c.condtype = 22 ∨ c.condtype = 13 ∨ c.condtype = 23 then true
  else if c.condtype = 11 ∧ (c.comparison = 2 ∨ c.comparison = 3) then true
  else if c.condtype ∈ comparisonSet then
    if c.comparison = 10 ∧ u32 c.amount = 0 then true
    else if c.comparison = 0 ∧ u32 c.amount ≤ 1 then true
    else if c.condtype = 2 ∨ c.condtype = 3 then false
    else if c.comparison = 0 ∨ c.comparison = 1 then true
    else if c.comparison ≠ 10 then false
    else if c.condtype = 15 ∧ c.eudx = 0x4353 then
      if BitVec.ofNat 32 (u32 c.amount) &&& ~~~ BitVec.ofNat 32 (u32 c.locid) ≠ 0 then true
      else if u32 c.amount = u32 c.locid then true
      else false
    else if u32 c.amount = 0xFFFFFFFF then true
    else false
  else false

/-! ## Meaning -/

/-- What conditions look at.  Of `Bring` and `Command`, `AtMost` counts other units than `AtLeast` and `Exactly` (condition.py:222-226). -/
structure Game where
  deaths : W → BitVec 16 → W
  switch : Nat → Bool
  value : Nat → Int → Int → Nat → Nat → W
  valueAtMost : Nat → Int → Int → Nat → Nat → W

/-- The number compared. -/
def CondF.val (g : Game) (c : CondF) (cmp : Cmp) : W :=
  if c.condtype = 15 then
    g.deaths (BitVec.ofInt 32 c.player) (BitVec.ofNat 16 c.unitid) &&& (if c.eudx = 0x4353 then BitVec.ofInt 32 c.locid else 0xFFFFFFFF)
  else if (c.condtype = 2 ∨ c.condtype = 3) ∧ cmp = .atMost then g.valueAtMost c.condtype c.locid c.player c.unitid c.restype
  else g.value c.condtype c.locid c.player c.unitid c.restype

/-- The truth value in the game; `none` if the condition makes no sense.  Type 13 is taken as never met, as condition.py:197 does. -/
def CondF.sem (g : Game) (c : CondF) : Option Bool :=
  if c.condtype = 0 then some true
  else if c.flags.testBit 1 then some true
  else if c.condtype = 22 then some true
  else if c.condtype = 13 ∨ c.condtype = 23 then some false
  else if c.condtype = 11 then
    if c.comparison = 2 then some (g.switch c.restype) else if c.comparison = 3 then some (!g.switch c.restype) else none
  else if c.condtype ∈ comparisonSet then
    (if c.comparison = 0 then some Cmp.atLeast else if c.comparison = 1 then some .atMost else if c.comparison = 10 then some .exactly else none).map
      fun cmp => compare cmp (c.val g cmp) (BitVec.ofInt 32 c.amount)
  else none

/-- The five dwords written for a condition (condition.py:186-187 `WritePack("IIIHBBBBH", …)`). -/
def CondF.Written (c : CondF) (m : Mem) (a : Nat) : Prop :=
  m a = BitVec.ofInt 32 c.locid ∧ m (a + 4) = BitVec.ofInt 32 c.player ∧ m (a + 8) = BitVec.ofInt 32 c.amount ∧
  m (a + 12) = BitVec.ofNat 8 c.condtype ++ BitVec.ofNat 8 c.comparison ++ BitVec.ofNat 16 c.unitid ∧
  m (a + 16) = BitVec.ofNat 16 c.eudx ++ BitVec.ofNat 8 c.flags ++ BitVec.ofNat 8 c.restype

structure CondF.Fits (c : CondF) : Prop where
  typ : c.condtype < 256
  cmp : c.comparison < 256
  eudx : c.eudx < 65536
  flags : c.flags < 256

theorem app_hi (x y : BitVec 8) (z : BitVec 16) : (x ++ y ++ z : BitVec 32).extractLsb' 24 8 = x := by
  ext i hi
  simp only [BitVec.getElem_extractLsb', BitVec.getLsbD_append]
  rw [if_neg (by omega), if_neg (by omega), BitVec.getLsbD_eq_getElem (by omega)]
  congr 1; omega

theorem app_mid (x y : BitVec 8) (z : BitVec 16) : (x ++ y ++ z : BitVec 32).extractLsb' 16 8 = y := by
  ext i hi
  simp only [BitVec.getElem_extractLsb', BitVec.getLsbD_append]
  rw [if_neg (by omega), if_pos (by omega), BitVec.getLsbD_eq_getElem (by omega)]
  congr 1; omega

theorem app_lo (x y : BitVec 8) (z : BitVec 16) : (x ++ y ++ z : BitVec 32).extractLsb' 0 16 = z := by
  ext i hi
  simp only [BitVec.getElem_extractLsb', BitVec.getLsbD_append]
  rw [if_pos (by omega), BitVec.getLsbD_eq_getElem (by omega)]
  congr 1; omega

theorem app_top (x : BitVec 16) (y z : BitVec 8) : (x ++ y ++ z : BitVec 32).extractLsb' 16 16 = x := by
  ext i hi
  simp only [BitVec.getElem_extractLsb', BitVec.getLsbD_append]
  rw [if_neg (by omega), if_neg (by omega), BitVec.getLsbD_eq_getElem (by omega)]
  congr 1; omega

theorem app_bit9 (x : BitVec 16) (y z : BitVec 8) : (x ++ y ++ z : BitVec 32).getLsbD 9 = y.getLsbD 1 := by
  simp only [BitVec.getLsbD_append]
  rw [if_neg (by omega), if_pos (by omega)]

/-- The meaning agrees with the trigger machine: for the conditions the machine knows, it decodes what is written to a condition with that
truth value, the death counters being the words of its memory. -/
theorem sem_machine {c : CondF} (hf : c.Fits) {m : Mem} {a : Nat} (hw : c.Written m a) {g : Game}
    (hg : ∀ p u d, dstOf p u = some d → g.deaths p u = m (d.addr m)) (ht : c.condtype = 15 ∨ c.condtype = 22 ∨ c.condtype = 23) {k : Cnd}
    (hd : decodeCond m a = .cond k) : c.sem g = some (k.holds m) := by
  obtain ⟨w0, w1, w2, w3, w4⟩ := hw
  have hbit : (BitVec.ofNat 8 c.flags).getLsbD 1 = c.flags.testBit 1 := by rw [BitVec.getLsbD_ofNat]; simp
  have heq : ∀ n k : Nat, n < 256 → k < 256 → (BitVec.ofNat 8 n = BitVec.ofNat 8 k ↔ n = k) := by
    intro n k hn hk
    constructor
    · intro h
      have := congrArg BitVec.toNat h
      simp only [BitVec.toNat_ofNat] at this
      omega
    · rintro rfl; rfl
  have heq16 : BitVec.ofNat 16 c.eudx = 0x4353 ↔ c.eudx = 0x4353 := by
    constructor
    · intro h
      have := congrArg BitVec.toNat h
      have hx := hf.eudx
      simp only [BitVec.toNat_ofNat, show (0x4353 : BitVec 16).toNat = 0x4353 from rfl] at this
      omega
    · intro h; rw [h]; rfl
  unfold decodeCond at hd
  simp only [w0, w1, w2, w3, w4, app_hi, app_mid, app_lo, app_bit9, hbit] at hd
  unfold CondF.sem
  have h0 : c.condtype ≠ 0 := by omega
  rw [if_neg (by rw [show (0 : BitVec 8) = BitVec.ofNat 8 0 from rfl, heq _ _ hf.typ (by decide)]; exact h0)] at hd
  rw [if_neg h0]
  by_cases hfl : c.flags.testBit 1 = true
  · rw [if_pos hfl] at hd ⊢
    cases hd; rfl
  rw [if_neg hfl] at hd ⊢
  rw [show (22 : BitVec 8) = BitVec.ofNat 8 22 from rfl, show (23 : BitVec 8) = BitVec.ofNat 8 23 from rfl, show (15 : BitVec 8) = BitVec.ofNat 8 15 from rfl] at hd
  simp only [heq _ _ hf.typ (show 22 < 256 by decide), heq _ _ hf.typ (show 23 < 256 by decide), heq _ _ hf.typ (show 15 < 256 by decide)] at hd
  rcases ht with ht | ht | ht
  · simp only [ht] at hd ⊢
    simp only [Nat.reduceEqDiff, if_false, if_true, false_or] at hd ⊢
    rw [if_pos (by decide)]
    cases hc : Cmp.ofCode (BitVec.ofNat 8 c.comparison) with
    | none => rw [hc] at hd; simp at hd
    | some cmp =>
      cases hdst : dstOf (BitVec.ofInt 32 c.player) (BitVec.ofNat 16 c.unitid) with
      | none => rw [hc, hdst] at hd; simp at hd
      | some d =>
        rw [hc, hdst] at hd
        cases hd
        have hcmp : (if c.comparison = 0 then some Cmp.atLeast else if c.comparison = 1 then some .atMost else if c.comparison = 10 then some .exactly else none) =
            some cmp := by
          rw [← hc]
          unfold Cmp.ofCode
          rw [show (0 : BitVec 8) = BitVec.ofNat 8 0 from rfl, show (1 : BitVec 8) = BitVec.ofNat 8 1 from rfl, show (10 : BitVec 8) = BitVec.ofNat 8 10 from rfl]
          simp only [heq _ _ hf.cmp (show 0 < 256 by decide), heq _ _ hf.cmp (show 1 < 256 by decide), heq _ _ hf.cmp (show 10 < 256 by decide)]
        rw [hcmp, Option.map_some]
        simp only [CondF.val, ht, if_true, Cnd.holds, effMask, app_top, heq16, hg _ _ _ hdst]
  · simp only [ht] at hd ⊢
    simp only [Nat.reduceEqDiff, if_true] at hd ⊢
    cases hd; rfl
  · simp only [ht] at hd ⊢
    simp only [Nat.reduceEqDiff, if_false, if_true, or_true] at hd ⊢
    cases hd; rfl

/-! ## Proofs -/

theorem ofInt_u32 (x : Int) : BitVec.ofNat 32 (u32 x) = BitVec.ofInt 32 x := by
  apply BitVec.eq_of_toNat_eq
  simp only [u32, BitVec.toNat_ofNat, BitVec.toNat_ofInt]
  omega

theorem u32_eq {x : Int} {n : Nat} (h : u32 x = n) : BitVec.ofInt 32 x = BitVec.ofNat 32 n := by rw [← ofInt_u32, h]

theorem toNat_ofInt_u32 (x : Int) : (BitVec.ofInt 32 x).toNat = u32 x := by
  simp only [u32, BitVec.toNat_ofInt]
  omega

theorem u32_lt (x : Int) : u32 x < 2 ^ 32 := by unfold u32; omega

/-- `AtLeast n` is the opposite of `AtMost (n - 1)` unless `n` is 0. -/
theorem not_atLeast (v : W) {x : Int} (h : u32 x ≠ 0) : compare .atMost v (BitVec.ofInt 32 (x - 1)) = !compare .atLeast v (BitVec.ofInt 32 x) := by
  have h1 : u32 (x - 1) = u32 x - 1 := by unfold u32 at h ⊢; omega
  simp only [compare, BitVec.le_def, toNat_ofInt_u32, h1]
  by_cases hv : u32 x ≤ v.toNat
  · simp [hv]; omega
  · simp [hv]; omega

theorem not_atMost (v : W) {x : Int} (h : u32 x ≠ 0xFFFFFFFF) : compare .atLeast v (BitVec.ofInt 32 (x + 1)) = !compare .atMost v (BitVec.ofInt 32 x) := by
  have h1 : u32 (x + 1) = u32 x + 1 := by unfold u32 at h ⊢; omega
  simp only [compare, BitVec.le_def, toNat_ofInt_u32, h1]
  by_cases hv : v.toNat ≤ u32 x
  · simp [hv]; omega
  · simp [hv]; omega

theorem not_exactly_zero (v : W) {x : Int} (h : u32 x = 0) : compare .atLeast v (BitVec.ofInt 32 1) = !compare .exactly v (BitVec.ofInt 32 x) := by
  rw [u32_eq h]
  simp only [compare, BitVec.le_def]
  have h1 : (BitVec.ofInt 32 1).toNat = 1 := by decide
  rw [h1]
  by_cases hv : v = BitVec.ofNat 32 0
  · subst hv; decide
  · have : v.toNat ≠ 0 := fun h => hv (BitVec.eq_of_toNat_eq (by simpa using h))
    simp only [hv, decide_false, Bool.not_false, decide_eq_true_eq]
    omega

theorem not_atLeast_one (v : W) {x : Int} (h : u32 x = 1) : compare .exactly v (BitVec.ofInt 32 0) = !compare .atLeast v (BitVec.ofInt 32 x) := by
  have := not_exactly_zero v (x := 0) (by decide)
  rw [u32_eq h]
  have h1 : BitVec.ofNat 32 1 = BitVec.ofInt 32 1 := by decide
  rw [h1, this, Bool.not_not]

/-- A value not above `n` equals `n` exactly if it is not at most `n - 1`. -/
theorem not_exactly_top (v : W) (n : Nat) (hn : n < 2 ^ 32) (h0 : n ≠ 0) (hv : v.toNat ≤ n) :
    compare .atMost v (BitVec.ofInt 32 ((n : Int) - 1)) = !compare .exactly v (BitVec.ofNat 32 n) := by
  have h1 : (BitVec.ofInt 32 ((n : Int) - 1)).toNat = n - 1 := by rw [toNat_ofInt_u32]; unfold u32; omega
  simp only [compare, BitVec.le_def, h1]
  by_cases he : v = BitVec.ofNat 32 n
  · subst he
    have : (BitVec.ofNat 32 n).toNat = n := by simp only [BitVec.toNat_ofNat]; omega
    simp only [this, decide_true, Bool.not_true, decide_eq_false_iff_not]
    omega
  · have : v.toNat ≠ n := fun h => he (BitVec.eq_of_toNat_eq (by simp only [BitVec.toNat_ofNat]; omega))
    simp only [he, decide_false, Bool.not_false, decide_eq_true_eq]
    omega

/-- **C16.** A condition that can be negated has the opposite truth value afterwards, in every state of the game, for every comparison,
amount and mask – but for three cases, in which this is false: `AtMost 0xFFFFFFFF` (`C16_counterexample_wrap`), masked `Exactly` of a number that
is not within the mask (`C16_counterexample_mask`), and disabled conditions (`C16_counterexample_disabled`). -/
theorem C16_negate_partial (g : Game) {c c' : CondF} {b : Bool} (hs : c.sem g = some b) (hn : c.negate = some c') (hdis : c.flags.testBit 1 = false)
    (hwrap : c.comparison = 1 → c.condtype ∈ comparisonSet → u32 c.amount ≠ 0xFFFFFFFF)
    (hmask : c.condtype = 15 → c.eudx = 0x4353 → c.comparison = 10 → BitVec.ofInt 32 c.amount &&& ~~~ BitVec.ofInt 32 c.locid = 0) :
    c'.sem g = some (!b) := by
  have hx : (2 : Nat) ^^^ 1 = 3 ∧ (3 : Nat) ^^^ 1 = 2 ∧ (0 : Nat) ^^^ 1 = 1 ∧ (1 : Nat) ^^^ 1 = 0 := by decide
  unfold CondF.negate at hn
  unfold CondF.sem at hs
  by_cases q0 : c.condtype = 0 ∨ c.condtype = 22
  · rw [if_pos q0] at hn
    have h := q0
    cases hn
    rcases h with h | h
    · rw [if_pos h] at hs; cases hs
      simp [CondF.sem, hdis]
    · rw [if_neg (by omega), hdis, if_neg (by simp), if_pos h] at hs; cases hs
      simp [CondF.sem, hdis]
  · rw [if_neg q0] at hn
    have h1 := q0
    by_cases q1 : c.condtype = 13 ∨ c.condtype = 23
    · rw [if_pos q1] at hn
      have h := q1
      cases hn
      rw [if_neg (by omega), hdis, if_neg (by simp), if_neg (by omega), if_pos h] at hs; cases hs
      simp [CondF.sem, hdis]
    · rw [if_neg q1] at hn
      have h2 := q1
      rw [if_neg (by omega), hdis, if_neg (by simp), if_neg (by omega), if_neg h2] at hs
      by_cases q2 : c.condtype = 11
      · rw [if_pos q2] at hn
        have h := q2
        cases hn
        rw [if_pos h] at hs
        split at hs
        · rename_i hc
          cases hs
          simp [CondF.sem, hdis, h, hc, hx.1]
        · split at hs
          · rename_i hc
            cases hs
            simp [CondF.sem, hdis, h, hc, hx.2.1]
          · simp at hs
      · rw [if_neg q2] at hn
        have h3 := q2
        rw [if_neg h3] at hs
        by_cases q3 : c.condtype ∈ comparisonSet
        · rw [if_pos q3] at hn
          have hm := q3
          rw [if_pos hm] at hs
          have hsem : ∀ (cmp : Nat) (am : Int) (cm : Cmp), (cmp = 0 ∧ cm = .atLeast ∨ cmp = 1 ∧ cm = .atMost ∨ cmp = 10 ∧ cm = .exactly) →
              ({ c with comparison := cmp, amount := am } : CondF).sem g = some (compare cm (c.val g cm) (BitVec.ofInt 32 am)) := by
            intro cmp am cm hcm
            unfold CondF.sem
            simp only [hdis]
            rw [if_neg (by omega), if_neg (by simp), if_neg (by omega), if_neg h2, if_neg h3, if_pos hm]
            rcases hcm with ⟨rfl, rfl⟩ | ⟨rfl, rfl⟩ | ⟨rfl, rfl⟩ <;> rfl
          have hnever : ({ c with condtype := 23 } : CondF).sem g = some false := by simp [CondF.sem, hdis]
          by_cases q4 : c.comparison = 10 ∧ u32 c.amount = 0
          · rw [if_pos q4] at hn
            have h := q4
            cases hn
            rw [if_neg (by omega), if_neg (by omega), if_pos h.1, Option.map_some] at hs
            rw [hsem 0 1 .atLeast (by simp), ← Option.some.inj hs]
            congr 1
            have : c.val g .atLeast = c.val g .exactly := by simp [CondF.val]
            rw [this]
            exact not_exactly_zero _ h.2
          · rw [if_neg q4] at hn
            by_cases q5 : c.comparison = 0 ∧ u32 c.amount = 1
            · rw [if_pos q5] at hn
              have h := q5
              cases hn
              rw [if_pos h.1, Option.map_some] at hs
              rw [hsem 10 0 .exactly (by simp), ← Option.some.inj hs]
              congr 1
              have : c.val g .exactly = c.val g .atLeast := by simp [CondF.val]
              rw [this]
              exact not_atLeast_one _ h.2
            · rw [if_neg q5] at hn
              by_cases q6 : c.comparison = 0 ∧ u32 c.amount = 0
              · rw [if_pos q6] at hn
                have h := q6
                cases hn
                rw [if_pos h.1, Option.map_some] at hs
                rw [hnever, ← Option.some.inj hs, u32_eq h.2]
                simp [compare, BitVec.le_def]
              · rw [if_neg q6] at hn
                have hz10 := q4; have hz := q6
                by_cases q7 : c.condtype = 2 ∨ c.condtype = 3
                · rw [if_pos q7] at hn
                  simp at hn
                · rw [if_neg q7] at hn
                  have h23 := q7
                  have hval : ∀ cm cm', c.val g cm = c.val g cm' := by intro cm cm'; simp [CondF.val, h23]
                  by_cases q8 : c.comparison = 0 ∨ c.comparison = 1
                  · rw [if_pos q8] at hn
                    have h01 := q8
                    cases hn
                    rcases h01 with h | h
                    · rw [if_pos h, Option.map_some] at hs
                      rw [h, hx.2.2.1, hsem 1 _ .atMost (by simp), ← Option.some.inj hs, hval .atMost .atLeast]
                      congr 1
                      exact not_atLeast _ (fun h' => hz ⟨h, h'⟩)
                    · rw [if_neg (by omega), if_pos h, Option.map_some] at hs
                      rw [h, hx.2.2.2, hsem 0 _ .atLeast (by simp), ← Option.some.inj hs, hval .atLeast .atMost]
                      congr 1
                      exact not_atMost _ (hwrap h hm)
                  · rw [if_neg q8] at hn
                    by_cases q9 : c.comparison ≠ 10
                    · rw [if_pos q9] at hn
                      simp at hn
                    · rw [if_neg q9] at hn
                      have h01 := q8; have h10 := q9
                      have h10 : c.comparison = 10 := by omega
                      rw [if_neg (by omega), if_neg (by omega), if_pos h10, Option.map_some] at hs
                      have hv := Option.some.inj hs
                      by_cases q10 : c.condtype = 15 ∧ c.eudx = 0x4353
                      · rw [if_pos q10] at hn
                        have hx15 := q10
                        by_cases q11 : BitVec.ofNat 32 (u32 c.amount) &&& ~~~ BitVec.ofNat 32 (u32 c.locid) ≠ 0
                        · rw [if_pos q11] at hn
                          have hb := q11
                          rw [ofInt_u32, ofInt_u32] at hb
                          exact absurd (hmask hx15.1 hx15.2 h10) hb
                        · rw [if_neg q11] at hn
                          by_cases q12 : u32 c.amount = u32 c.locid
                          · rw [if_pos q12] at hn
                            have he := q12
                            cases hn
                            rw [hsem 1 _ .atMost (by simp), ← hv, hval .atMost .exactly]
                            congr 1
                            have hle : (c.val g .exactly).toNat ≤ u32 c.locid := by
                              rw [← toNat_ofInt_u32]
                              simp only [CondF.val, hx15.1, hx15.2, if_true]
                              rw [BitVec.toNat_and]
                              exact Nat.and_le_right
                            have h0 : u32 c.locid ≠ 0 := fun h0 => hz10 ⟨h10, by omega⟩
                            rw [u32_eq he]
                            exact not_exactly_top _ _ (u32_lt _) h0 hle
                          · rw [if_neg q12] at hn
                            simp at hn
                      · rw [if_neg q10] at hn
                        by_cases q13 : u32 c.amount = 0xFFFFFFFF
                        · rw [if_pos q13] at hn
                          have he := q13
                          cases hn
                          rw [hsem 1 _ .atMost (by simp), ← hv, hval .atMost .exactly, u32_eq he]
                          congr 1
                          exact not_exactly_top _ 0xFFFFFFFF (by decide) (by decide) (by have := (c.val g .exactly).isLt; omega)
                        · rw [if_neg q13] at hn
                          simp at hn
        · rw [if_neg q3] at hn
          simp at hn

/-- **C16 (which).** What the library believes to be negatable is what `negate` does not refuse (`Switch` conditions being of the two kinds
there are); a refused negation changes nothing. -/
theorem C16_negatable (c : CondF) (hsw : c.condtype = 11 → c.comparison = 2 ∨ c.comparison = 3) : c.negatable = c.negate.isSome := by
  unfold CondF.negatable CondF.negate
  by_cases a1 : c.condtype = 0 ∨ c.condtype = 22
  · rw [if_pos (by omega), if_pos a1]; rfl
  rw [if_neg a1]
  by_cases a2 : c.condtype = 13 ∨ c.condtype = 23
  · rw [if_pos (by omega), if_pos a2]; rfl
  rw [if_neg (by omega), if_neg a2]
  by_cases a3 : c.condtype = 11
  · rw [if_pos ⟨a3, hsw a3⟩, if_pos a3]; rfl
  rw [if_neg (fun h => a3 h.1), if_neg a3]
  by_cases a4 : c.condtype ∈ comparisonSet
  · rw [if_pos a4, if_pos a4]
    by_cases a5 : c.comparison = 10 ∧ u32 c.amount = 0
    · rw [if_pos a5, if_pos a5]; rfl
    rw [if_neg a5, if_neg a5]
    by_cases a6 : c.comparison = 0 ∧ u32 c.amount = 1
    · rw [if_pos ⟨a6.1, by omega⟩, if_pos a6]; rfl
    rw [if_neg a6]
    by_cases a7 : c.comparison = 0 ∧ u32 c.amount = 0
    · rw [if_pos ⟨a7.1, by omega⟩, if_pos a7]; rfl
    rw [if_neg a7, if_neg (by omega)]
    split
    · rfl
    · split
      · rfl
      · split
        · rfl
        · split
          · split
            · rfl
            · split <;> rfl
          · split <;> rfl
  · rw [if_neg a4, if_neg a4]; rfl

/-- A game for examples: every death counter is 5. -/
def exGame (v : W) : Game := ⟨fun _ _ => v, fun _ => true, fun _ _ _ _ _ => 0, fun _ _ _ _ _ => 0⟩

/-- **C16 is false** for `AtMost 0xFFFFFFFF`: it is always met, and so is its negation `AtLeast 0x100000000`, which is written as `AtLeast 0`. -/
theorem C16_counterexample_wrap : ∃ c c' : CondF, c.negatable = true ∧ c.negate = some c' ∧ ∀ v, c.sem (exGame v) = some true ∧ c'.sem (exGame v) = some true := by
  refine ⟨⟨0, 100, 0xFFFFFFFF, 0, 1, 15, 0, 0, 0⟩, ⟨0, 100, 0x100000000, 0, 0, 15, 0, 0, 0⟩, by decide, ?_, ?_⟩
  · simp [CondF.negate, comparisonSet, u32]
  · intro v
    have : v.toNat ≤ 4294967295 := by have := v.isLt; omega
    constructor
    · simp [CondF.sem, comparisonSet, CondF.val, exGame, compare, BitVec.le_def]
      exact Nat.and_le_right
    · simp [CondF.sem, comparisonSet, CondF.val, exGame, compare, BitVec.le_def]

/-- **C16 is false** for a masked `Exactly` with a number outside the mask: it is never met, and neither is its negation. -/
theorem C16_counterexample_mask : ∃ c c' : CondF, c.negatable = true ∧ c.negate = some c' ∧ c.sem (exGame 5) = some false ∧ c'.sem (exGame 5) = some false := by
  refine ⟨⟨0xFF, 100, 0x100, 0, 10, 15, 0, 0, 0x4353⟩, ⟨0xFF, 100, 0x100, 0, 10, 23, 0, 0, 0x4353⟩, by decide, ?_, by decide +kernel, by decide +kernel⟩
  simp [CondF.negate, comparisonSet, u32]

/-- **C16 is false** for disabled conditions: they count as met, before and after. -/
theorem C16_counterexample_disabled : ∃ c c' : CondF, c.negatable = true ∧ c.negate = some c' ∧ c.sem (exGame 5) = some true ∧ c'.sem (exGame 5) = some true := by
  refine ⟨⟨0, 100, 3, 0, 0, 15, 0, 2, 0⟩, ⟨0, 100, 2, 0, 1, 15, 0, 2, 0⟩, by decide, ?_, by decide +kernel, by decide +kernel⟩
  simp [CondF.negate, comparisonSet, u32]

/-- The hypotheses of `C16_negate_partial` are met by, say, a masked `Exactly` of the whole mask: its negation is `AtMost 0xFE`. -/
example : ∃ c c' : CondF, c.sem (exGame 0x5FF) = some true ∧ c.negate = some c' ∧ c.flags.testBit 1 = false ∧ c.comparison = 10 ∧
    BitVec.ofInt 32 c.amount &&& ~~~ BitVec.ofInt 32 c.locid = 0 ∧ c'.sem (exGame 0x5FF) = some false ∧ c'.comparison = 1 ∧ c'.amount = 0xFE := by
  refine ⟨⟨0xFF, 100, 0xFF, 0, 10, 15, 0, 0, 0x4353⟩, ⟨0xFF, 100, 0xFE, 0, 1, 15, 0, 0, 0x4353⟩, by decide +kernel, ?_, by decide, rfl, by decide, by decide +kernel, rfl, rfl⟩
  simp [CondF.negate, comparisonSet, u32]

end Eud.SC
