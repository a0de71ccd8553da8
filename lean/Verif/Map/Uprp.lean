import Verif.Map.Bytes
/-
C13: the table of unit properties (src/eudplib/core/mapdata/{proptable,unitprp}.py).
A property is the record of ten fields that `unpack_from("<HHBBBBIHHI", …)` gives; packing and unpacking it is not modelled.
-/

namespace Eud.Map

/-- unitprp.py:19-30, the fields in order. -/
structure Prp where
  sprpvalid : BitVec 16
  prpvalid : BitVec 16
  player : BitVec 8
  hitpoint : BitVec 8
  shield : BitVec 8
  energy : BitVec 8
  resource : BitVec 32
  hanger : BitVec 16
  sprpflag : BitVec 16
  unused : BitVec 32
  deriving DecidableEq

/-- `if c & m == 0: x &= ~m` -/
def clr (c x m : BitVec 16) : BitVec 16 := if c &&& m = 0 then x &&& ~~~ m else x

/-- unitprp.py:140-193 `property_key` -/
def key (p : Prp) : Prp :=
  let x0 := p.sprpvalid &&& 0b11111
  let x1 := p.prpvalid &&& 0b111111
  let x8 := p.sprpflag &&& 0b11111
  let x1 := if p.hitpoint = 100 then x1 &&& ~~~ 0b10 else x1
  let x1 := if p.shield = 100 then x1 &&& ~~~ 0b100 else x1
  let x1 := if p.hanger = 0 then x1 &&& ~~~ 0b100000 else x1
  let x3 := if x1 &&& 0b10 = 0 then 0 else p.hitpoint
  let x4 := if x1 &&& 0b100 = 0 then 0 else p.shield
  let x5 := if x1 &&& 0b1000 = 0 then 0 else p.energy
  let x6 := if x1 &&& 0b10000 = 0 then 0 else p.resource
  let x7 := if x1 &&& 0b100000 = 0 then 0 else p.hanger
  let x0 := clr x8 (clr x8 (clr x8 (clr x8 (clr x8 x0 0b1) 0b10) 0b100) 0b1000) 0b10000
  let x8 := clr x0 (clr x0 (clr x0 (clr x0 (clr x0 x8 0b1) 0b10) 0b100) 0b1000) 0b10000
  ⟨x0, x1, 0, x3, x4, x5, x6, x7, x8, 0⟩

/-- proptable.py:12-13.  `tbl i = none`: `_uprptable[i]` is `b""`. -/
structure Uprp where
  dict : Prp → Option Nat
  tbl : Nat → Option Prp

/-- proptable.py:29-34 for slots `i, …, i + m - 1` -/
def initLoop (uprp : Nat → Prp) (upus : Nat → Bool) : Nat → Nat → Uprp → Uprp
  | _, 0, u => u
  | i, m + 1, u => initLoop uprp upus (i + 1) m <|
    if upus i then ⟨fun q => if q = key (uprp i) then some i else u.dict q, fun j => if j = i then some (key (uprp i)) else u.tbl j⟩ else u

/-- proptable.py:16-34 `init_property_map`.  `upus` is constantly true if the section is missing. -/
def initProps (uprp : Nat → Prp) (upus : Nat → Bool) : Uprp := initLoop uprp upus 0 64 ⟨fun _ => none, fun _ => none⟩

/-- proptable.py:46-50: the first free slot of `i, …, i + m - 1`. -/
def freeSlot (u : Uprp) : Nat → Nat → Option Nat
  | _, 0 => none
  | i, m + 1 => if u.tbl i = none then some i else freeSlot u (i + 1) m

/-- proptable.py:37-56 `GetPropertyIndex`; `none`: the table is full. -/
def getProp (u : Uprp) (p : Prp) : Option (Uprp × Nat) :=
  match u.dict (key p) with
  | some i => some (u, i + 1)
  | none => (freeSlot u 0 64).map fun i =>
    (⟨fun q => if q = key p then some i else u.dict q, fun j => if j = i then some (key p) else u.tbl j⟩, i + 1)

def getProps (u : Uprp) : List Prp → Option Uprp
  | [] => some u
  | p :: l => (getProp u p).bind fun q => getProps q.1 l

/-- proptable.py:59-61 `apply_property_map`: slot `i` of the section written. -/
def saved (u : Uprp) (i : Nat) : Prp := (u.tbl i).getD ⟨0, 0, 0, 0, 0, 0, 0, 0, 0, 0⟩

/-! ## Specification -/

/-- What a property record means for the unit created with it: the documentation in unitprp.py:45-65 and 147-191 -/
structure Meaning where
  hitpoint : Option (BitVec 8)
  shield : Option (BitVec 8)
  energy : Option (BitVec 8)
  resource : Option (BitVec 32)
  hanger : Option (BitVec 16)
  special : Fin 5 → Bool

/-- A full percentage of hit points or shields, and no units in the hangar, are what a unit has anyway.  A special property is there if it
is both valid and set. -/
def meaning (p : Prp) : Meaning where
  hitpoint := if p.prpvalid.getLsbD 1 ∧ p.hitpoint ≠ 100 then some p.hitpoint else none
  shield := if p.prpvalid.getLsbD 2 ∧ p.shield ≠ 100 then some p.shield else none
  energy := if p.prpvalid.getLsbD 3 then some p.energy else none
  resource := if p.prpvalid.getLsbD 4 then some p.resource else none
  hanger := if p.prpvalid.getLsbD 5 ∧ p.hanger ≠ 0 then some p.hanger else none
  special := fun i => p.sprpvalid.getLsbD i && p.sprpflag.getLsbD i

/-! ## Keys -/

theorem and_bit {x : BitVec 16} {k : Nat} (hk : k < 16) : (x &&& BitVec.twoPow 16 k = 0) ↔ x.getLsbD k = false := by
  constructor
  · intro h
    have := congrArg (fun y : BitVec 16 => y.getLsbD k) h
    simp [hk] at this
    exact this
  · intro h
    apply BitVec.eq_of_getLsbD_eq
    intro i hi
    simp only [BitVec.getLsbD_and, BitVec.getLsbD_twoPow]
    by_cases hki : k = i
    · subst hki; simp [h]
    · simp [hki]

theorem clr_eq (c x : BitVec 16) {k : Nat} (hk : k < 16) : clr c x (BitVec.twoPow 16 k) = x &&& (c ||| ~~~ BitVec.twoPow 16 k) := by
  unfold clr
  apply BitVec.eq_of_getLsbD_eq
  intro i hi
  by_cases hc : c &&& BitVec.twoPow 16 k = 0
  · rw [if_pos hc]
    have := (and_bit hk).1 hc
    simp only [BitVec.getLsbD_and, BitVec.getLsbD_or, BitVec.getLsbD_not, BitVec.getLsbD_twoPow, hi, decide_true, Bool.true_and]
    by_cases hki : k = i
    · subst hki; simp [this]
    · simp [hki]
  · rw [if_neg hc]
    have : c.getLsbD k = true := by
      cases h : c.getLsbD k with
      | true => rfl
      | false => exact absurd ((and_bit hk).2 h) hc
    simp only [BitVec.getLsbD_and, BitVec.getLsbD_or, BitVec.getLsbD_not, BitVec.getLsbD_twoPow, hi, decide_true, Bool.true_and]
    by_cases hki : k = i
    · subst hki; simp [this]
    · simp [hki]

/-- Clearing five bits in turn. -/
theorem clr5 (c x : BitVec 16) : clr c (clr c (clr c (clr c (clr c x 0b1) 0b10) 0b100) 0b1000) 0b10000 = x &&& (c ||| ~~~ 0b11111) := by
  have h0 : (0b1 : BitVec 16) = BitVec.twoPow 16 0 := rfl
  have h1 : (0b10 : BitVec 16) = BitVec.twoPow 16 1 := rfl
  have h2 : (0b100 : BitVec 16) = BitVec.twoPow 16 2 := rfl
  have h3 : (0b1000 : BitVec 16) = BitVec.twoPow 16 3 := rfl
  have h4 : (0b10000 : BitVec 16) = BitVec.twoPow 16 4 := rfl
  rw [h0, h1, h2, h3, h4, clr_eq _ _ (by decide), clr_eq _ _ (by decide), clr_eq _ _ (by decide), clr_eq _ _ (by decide), clr_eq _ _ (by decide)]
  have : (c ||| ~~~ (0b11111 : BitVec 16)) = (c ||| ~~~ BitVec.twoPow 16 0) &&& (c ||| ~~~ BitVec.twoPow 16 1) &&& (c ||| ~~~ BitVec.twoPow 16 2) &&&
      (c ||| ~~~ BitVec.twoPow 16 3) &&& (c ||| ~~~ BitVec.twoPow 16 4) := by
    have e : (~~~ (0b11111 : BitVec 16)) = ~~~ BitVec.twoPow 16 0 &&& ~~~ BitVec.twoPow 16 1 &&& ~~~ BitVec.twoPow 16 2 &&& ~~~ BitVec.twoPow 16 3 &&&
      ~~~ BitVec.twoPow 16 4 := by decide
    rw [e]
    apply BitVec.eq_of_getLsbD_eq
    intro i hi
    simp only [BitVec.getLsbD_or, BitVec.getLsbD_and]
    cases c.getLsbD i <;> simp
  rw [this]
  ac_rfl

theorem low5 (v f : BitVec 16) : v &&& 0b11111 &&& (f &&& 0b11111 ||| ~~~ 0b11111) = v &&& f &&& 0b11111 ∧
    f &&& 0b11111 &&& (v &&& f &&& 0b11111 ||| ~~~ 0b11111) = v &&& f &&& 0b11111 := by
  constructor <;>
  · apply BitVec.eq_of_getLsbD_eq
    intro i hi
    simp only [BitVec.getLsbD_or, BitVec.getLsbD_and, BitVec.getLsbD_not, hi, decide_true, Bool.true_and]
    cases v.getLsbD i <;> cases f.getLsbD i <;> cases (0b11111 : BitVec 16).getLsbD i <;> rfl

/-- The valid bits that `property_key` leaves. -/
def validBits (p : Prp) : BitVec 16 :=
  let x1 := p.prpvalid &&& 0b111111
  let x1 := if p.hitpoint = 100 then x1 &&& ~~~ 0b10 else x1
  let x1 := if p.shield = 100 then x1 &&& ~~~ 0b100 else x1
  if p.hanger = 0 then x1 &&& ~~~ 0b100000 else x1

theorem key_eq (p : Prp) : key p = ⟨p.sprpvalid &&& p.sprpflag &&& 0b11111, validBits p, 0,
    if (validBits p).getLsbD 1 then p.hitpoint else 0, if (validBits p).getLsbD 2 then p.shield else 0,
    if (validBits p).getLsbD 3 then p.energy else 0, if (validBits p).getLsbD 4 then p.resource else 0,
    if (validBits p).getLsbD 5 then p.hanger else 0, p.sprpvalid &&& p.sprpflag &&& 0b11111, 0⟩ := by
  have hb : ∀ {α : Type} (k : Nat) (_ : k < 16) (m : BitVec 16) (_ : m = BitVec.twoPow 16 k) (x : BitVec 16) (a b : α),
      (if x &&& m = 0 then a else b) = if x.getLsbD k then b else a := by
    intro α k hk m hm x a b
    subst hm
    by_cases h : x &&& BitVec.twoPow 16 k = 0
    · rw [if_pos h, (and_bit hk).1 h]; rfl
    · rw [if_neg h]
      cases h' : x.getLsbD k with
      | true => rfl
      | false => exact absurd ((and_bit hk).2 h') h
  simp only [key, clr5, (low5 _ _).1]
  show Prp.mk _ (validBits p) 0 (if validBits p &&& 0b10 = 0 then 0 else p.hitpoint) (if validBits p &&& 0b100 = 0 then 0 else p.shield)
    (if validBits p &&& 0b1000 = 0 then 0 else p.energy) (if validBits p &&& 0b10000 = 0 then 0 else p.resource)
    (if validBits p &&& 0b100000 = 0 then 0 else p.hanger) _ 0 = _
  rw [hb 1 (by decide) 0b10 rfl, hb 2 (by decide) 0b100 rfl, hb 3 (by decide) 0b1000 rfl, hb 4 (by decide) 0b10000 rfl, hb 5 (by decide) 0b100000 rfl]
  have : p.sprpflag &&& (p.sprpvalid &&& p.sprpflag) &&& 31 = p.sprpvalid &&& p.sprpflag &&& 31 := by
    apply BitVec.eq_of_getLsbD_eq
    intro i hi
    simp only [BitVec.getLsbD_and]
    cases p.sprpvalid.getLsbD i <;> cases p.sprpflag.getLsbD i <;> rfl
  rw [this]

theorem bit63 (i : Nat) : (0b111111 : BitVec 16).getLsbD i = decide (i < 6) := by
  by_cases h : i < 16
  · have : ∀ i : Fin 16, (0b111111 : BitVec 16).getLsbD i = decide (i.val < 6) := by decide
    exact this ⟨i, h⟩
  · rw [BitVec.getLsbD_of_ge _ _ (by omega)]
    simp; omega

theorem bit31 (i : Nat) : (0b11111 : BitVec 16).getLsbD i = decide (i < 5) := by
  by_cases h : i < 16
  · have : ∀ i : Fin 16, (0b11111 : BitVec 16).getLsbD i = decide (i.val < 5) := by decide
    exact this ⟨i, h⟩
  · rw [BitVec.getLsbD_of_ge _ _ (by omega)]
    simp; omega

theorem bitPow (k i : Nat) (m : BitVec 16) (hm : m = BitVec.twoPow 16 k) (hk : k < 16) : m.getLsbD i = decide (i = k) := by
  subst hm
  rw [BitVec.getLsbD_twoPow]
  by_cases h : k = i
  · subst h; simp [hk]
  · simp [h, Ne.symm h]

theorem validBits_bit (p : Prp) {i : Nat} (hi : i < 6) : (validBits p).getLsbD i =
    (p.prpvalid.getLsbD i && !(decide (i = 1) && decide (p.hitpoint = 100)) && !(decide (i = 2) && decide (p.shield = 100)) &&
      !(decide (i = 5) && decide (p.hanger = 0))) := by
  have hi16 : i < 16 := by omega
  unfold validBits
  by_cases h1 : p.hitpoint = 100 <;> by_cases h2 : p.shield = 100 <;> by_cases h3 : p.hanger = 0 <;>
    simp only [h1, h2, h3, if_true, if_false, BitVec.getLsbD_and, BitVec.getLsbD_not, bit63, bitPow 1 i 0b10 rfl (by decide),
      bitPow 2 i 0b100 rfl (by decide), bitPow 5 i 0b100000 rfl (by decide), hi, hi16, decide_true, decide_false, Bool.true_and, Bool.and_true,
      Bool.and_false, Bool.not_false]

theorem validBits_high (p : Prp) {i : Nat} (hi : ¬ i < 6) : (validBits p).getLsbD i = false := by
  unfold validBits
  by_cases h1 : p.hitpoint = 100 <;> by_cases h2 : p.shield = 100 <;> by_cases h3 : p.hanger = 0 <;>
    simp only [h1, h2, h3, if_true, if_false, BitVec.getLsbD_and, bit63, hi, decide_false, Bool.and_false, Bool.false_and]

theorem meaning_eq (p : Prp) : meaning p = ⟨if (validBits p).getLsbD 1 then some p.hitpoint else none, if (validBits p).getLsbD 2 then some p.shield else none,
    if (validBits p).getLsbD 3 then some p.energy else none, if (validBits p).getLsbD 4 then some p.resource else none,
    if (validBits p).getLsbD 5 then some p.hanger else none, fun i => (p.sprpvalid &&& p.sprpflag &&& 0b11111).getLsbD i⟩ := by
  have hs : (meaning p).special = fun i : Fin 5 => (p.sprpvalid &&& p.sprpflag &&& 0b11111).getLsbD i.val := by
    funext i
    show (p.sprpvalid.getLsbD i && p.sprpflag.getLsbD i) = _
    rw [BitVec.getLsbD_and, BitVec.getLsbD_and, bit31, decide_eq_true i.2, Bool.and_true]
  rw [validBits_bit p (by decide), validBits_bit p (by decide), validBits_bit p (by decide), validBits_bit p (by decide), validBits_bit p (by decide), ← hs]
  simp [meaning]

/-- A record without the fields that do not matter means the same. -/
theorem C13_key_meaning (p : Prp) : meaning (key p) = meaning p := by
  have hv : validBits (key p) = validBits p := by
    apply BitVec.eq_of_getLsbD_eq
    intro i _
    by_cases hi : i < 6
    · rw [validBits_bit _ hi]
      have h := validBits_bit p hi
      rw [key_eq]
      simp only
      cases hb : (validBits p).getLsbD i with
      | false => rfl
      | true =>
        rw [hb] at h
        simp only [Bool.true_and]
        by_cases h1 : i = 1
        · subst h1; simp [hb] at h ⊢; exact h.2
        · by_cases h2 : i = 2
          · subst h2; simp [hb] at h ⊢; exact h.2
          · by_cases h5 : i = 5
            · subst h5; simp [hb] at h ⊢; exact h.2
            · simp [h1, h2, h5]
    · rw [validBits_high _ hi, validBits_high _ hi]
  rw [meaning_eq, meaning_eq, hv, key_eq]
  congr 1
  · simp only; split <;> simp_all
  · simp only; split <;> simp_all
  · simp only; split <;> simp_all
  · simp only; split <;> simp_all
  · simp only; split <;> simp_all
  · funext i
    simp only [BitVec.getLsbD_and]
    cases p.sprpvalid.getLsbD i <;> cases p.sprpflag.getLsbD i <;> cases (0b11111 : BitVec 16).getLsbD i <;> rfl

theorem ite_some {α : Type} {b c : Bool} {x y : α} {z : α} (h : (if b then some x else none) = if c then some y else none) :
    b = c ∧ (if b then x else z) = if c then y else z := by
  cases b <;> cases c <;> simp_all

/-- **C13 (keys).** Two records are recognised as the same property exactly if they mean the same (and agree on the unused valid bit 0). -/
theorem C13_key (p q : Prp) : key p = key q ↔ meaning p = meaning q ∧ p.prpvalid.getLsbD 0 = q.prpvalid.getLsbD 0 := by
  have hb0 : ∀ p : Prp, (validBits p).getLsbD 0 = p.prpvalid.getLsbD 0 := fun p => by rw [validBits_bit p (by decide)]; simp
  constructor
  · intro h
    refine ⟨by rw [← C13_key_meaning p, h, C13_key_meaning], ?_⟩
    rw [key_eq, key_eq] at h
    rw [← hb0, ← hb0, (Prp.mk.inj h).2.1]
  · rintro ⟨h, h0⟩
    rw [meaning_eq, meaning_eq] at h
    obtain ⟨m1, m2, m3, m4, m5, m6⟩ := Meaning.mk.inj h
    have e1 := ite_some (z := 0) m1
    have e2 := ite_some (z := 0) m2
    have e3 := ite_some (z := 0) m3
    have e4 := ite_some (z := 0) m4
    have e5 := ite_some (z := 0) m5
    have hs : p.sprpvalid &&& p.sprpflag &&& 0b11111 = q.sprpvalid &&& q.sprpflag &&& 0b11111 := by
      apply BitVec.eq_of_getLsbD_eq
      intro i _
      by_cases hi : i < 5
      · exact congrFun m6 ⟨i, hi⟩
      · simp only [BitVec.getLsbD_and, bit31, hi, decide_false, Bool.and_false]
    have hv : validBits p = validBits q := by
      apply BitVec.eq_of_getLsbD_eq
      intro i _
      by_cases hi : i < 6
      · have : i = 0 ∨ i = 1 ∨ i = 2 ∨ i = 3 ∨ i = 4 ∨ i = 5 := by omega
        rcases this with rfl | rfl | rfl | rfl | rfl | rfl
        · rw [hb0, hb0, h0]
        · exact e1.1
        · exact e2.1
        · exact e3.1
        · exact e4.1
        · exact e5.1
      · rw [validBits_high _ hi, validBits_high _ hi]
    rw [key_eq, key_eq, hs, e1.2, e2.2, e3.2, e4.2, e5.2, hv]

/-! ## Slots -/

structure UGood (u : Uprp) : Prop where
  sound : ∀ k i, u.dict k = some i → i < 64 ∧ u.tbl i = some k
  complete : ∀ i k, u.tbl i = some k → ∃ j, u.dict k = some j

theorem UGood.put {u : Uprp} (h : UGood u) (k : Prp) {i : Nat} (hi : i < 64) (ht : u.tbl i = none) :
    UGood ⟨fun q => if q = k then some i else u.dict q, fun j => if j = i then some k else u.tbl j⟩ := by
  constructor
  · intro q j hq
    simp only at hq ⊢
    split at hq
    · rename_i hqk
      cases hq; subst hqk; exact ⟨hi, by simp⟩
    · have := h.sound q j hq
      refine ⟨this.1, ?_⟩
      rw [if_neg]; exact this.2
      rintro rfl
      rw [ht] at this; exact absurd this.2 (by simp)
  · intro j q hq
    simp only at hq ⊢
    by_cases hqk : q = k
    · exact ⟨i, by simp [hqk]⟩
    · rw [if_neg hqk]
      split at hq
      · cases hq; exact absurd rfl hqk
      · exact h.complete j q hq

theorem initLoop_ok (uprp : Nat → Prp) (upus : Nat → Bool) : ∀ (m i : Nat) (u : Uprp), i + m ≤ 64 → UGood u → (∀ j, i ≤ j → u.tbl j = none) →
    (∀ j < i, u.tbl j = if upus j then some (key (uprp j)) else none) →
    UGood (initLoop uprp upus i m u) ∧ ∀ j < i + m, (initLoop uprp upus i m u).tbl j = if upus j then some (key (uprp j)) else none
  | 0, i, u, _, h, _, ht => ⟨h, ht⟩
  | m + 1, i, u, hm, h, hn, ht => by
    have := initLoop_ok uprp upus m (i + 1) (if upus i then ⟨fun q => if q = key (uprp i) then some i else u.dict q, fun j => if j = i then some (key (uprp i)) else u.tbl j⟩ else u)
      (by omega) ?_ ?_ ?_
    · rw [show i + (m + 1) = i + 1 + m by omega]; exact this
    · split
      · exact h.put _ (by omega) (hn i (Nat.le_refl _))
      · exact h
    · intro j hj
      split
      · simp only; rw [if_neg (by omega)]; exact hn j (by omega)
      · exact hn j (by omega)
    · intro j hj
      by_cases hji : j = i
      · subst hji
        split
        · simp
        · exact hn j (Nat.le_refl _)
      · split
        · simp only; rw [if_neg hji]; exact ht j (by omega)
        · exact ht j (by omega)

theorem initProps_ok (uprp : Nat → Prp) (upus : Nat → Bool) : UGood (initProps uprp upus) ∧
    ∀ j < 64, (initProps uprp upus).tbl j = if upus j then some (key (uprp j)) else none := by
  have := initLoop_ok uprp upus 64 0 ⟨fun _ => none, fun _ => none⟩ (by omega) ⟨by simp, by simp⟩ (by simp) (by simp)
  rw [Nat.zero_add] at this
  exact this

theorem freeSlot_some {u : Uprp} {r : Nat} : ∀ {m i : Nat}, freeSlot u i m = some r → i ≤ r ∧ r < i + m ∧ u.tbl r = none
  | 0, i, h => by simp [freeSlot] at h
  | m + 1, i, h => by
    unfold freeSlot at h
    split at h
    · rename_i ht
      cases h; exact ⟨Nat.le_refl _, by omega, ht⟩
    · have := freeSlot_some h
      exact ⟨by omega, by omega, this.2.2⟩

theorem freeSlot_none {u : Uprp} : ∀ {m i : Nat}, freeSlot u i m = none → ∀ j, i ≤ j → j < i + m → u.tbl j ≠ none
  | 0, i, _, j, h1, h2 => by omega
  | m + 1, i, h, j, h1, h2 => by
    unfold freeSlot at h
    split at h
    · simp at h
    · rename_i ht
      by_cases hj : j = i
      · subst hj; exact ht
      · exact freeSlot_none h j (by omega) (by omega)

structure GetOk (u v : Uprp) (p : Prp) (n : Nat) : Prop where
  good : UGood v
  slot : ∃ i, n = i + 1 ∧ i < 64 ∧ v.tbl i = some (key p) ∧ v.dict (key p) = some i
  keep : ∀ j k, u.tbl j = some k → v.tbl j = some k
  dict : ∀ k i, u.dict k = some i → v.dict k = some i

theorem getProp_ok {u v : Uprp} {p : Prp} {n : Nat} (h : UGood u) (hg : getProp u p = some (v, n)) : GetOk u v p n := by
  unfold getProp at hg
  split at hg
  · rename_i i hi
    cases hg
    exact ⟨h, ⟨i, rfl, (h.sound _ _ hi).1, (h.sound _ _ hi).2, hi⟩, fun _ _ hx => hx, fun _ _ hx => hx⟩
  · rename_i hn
    obtain ⟨i, hi, he⟩ := Option.map_eq_some_iff.1 hg
    cases he
    obtain ⟨-, h2, h3⟩ := freeSlot_some hi
    have hlt : i < 64 := by omega
    refine ⟨h.put _ hlt h3, ⟨i, rfl, hlt, by simp, by simp⟩, ?_, ?_⟩
    · intro j k hj
      simp only
      rw [if_neg]; exact hj
      rintro rfl; rw [h3] at hj; simp at hj
    · intro k j hk
      simp only
      rw [if_neg]; exact hk
      rintro rfl; rw [hn] at hk; simp at hk

theorem getProps_ok {v : Uprp} : ∀ {l : List Prp} {u : Uprp}, UGood u → getProps u l = some v →
    UGood v ∧ (∀ j k, u.tbl j = some k → v.tbl j = some k) ∧ ∀ k i, u.dict k = some i → v.dict k = some i
  | [], u, h, hg => by cases hg; exact ⟨h, fun _ _ hx => hx, fun _ _ hx => hx⟩
  | p :: l, u, h, hg => by
    obtain ⟨⟨w, n⟩, h1, h2⟩ := Option.bind_eq_some_iff.1 hg
    have g := getProp_ok h h1
    obtain ⟨a, b, c⟩ := getProps_ok g.good h2
    exact ⟨a, fun j k hx => b j k (g.keep j k hx), fun k i hx => c k i (g.dict k i hx)⟩

/-- **C13.** For any initial section and usage and any history of requests before (`l`) and after (`l'`): the slot given out is one of the 64,
holds a record that means the same, also in the end; a property with the same meaning gets the same slot, one with another meaning another
slot; and the slots the map uses keep their meaning. -/
theorem C13_slots (uprp : Nat → Prp) (upus : Nat → Bool) {l l' : List Prp} {u v w : Uprp} {p : Prp} {n : Nat}
    (hl : getProps (initProps uprp upus) l = some u) (hg : getProp u p = some (v, n)) (hl' : getProps v l' = some w) :
    1 ≤ n ∧ n ≤ 64 ∧ meaning (saved w (n - 1)) = meaning p ∧
    (∀ q, meaning q = meaning p → q.prpvalid.getLsbD 0 = p.prpvalid.getLsbD 0 → getProp w q = some (w, n)) ∧
    (∀ q w' m, meaning q ≠ meaning p → getProp w q = some (w', m) → m ≠ n) ∧
    (∀ i < 64, upus i → meaning (saved w i) = meaning (uprp i)) := by
  obtain ⟨i1, i2⟩ := initProps_ok uprp upus
  obtain ⟨g1, k1, -⟩ := getProps_ok i1 hl
  have s := getProp_ok g1 hg
  obtain ⟨g2, k2, d2⟩ := getProps_ok s.good hl'
  obtain ⟨i, rfl, hi, ht, hd⟩ := s.slot
  have hw := k2 _ _ ht
  refine ⟨by omega, by omega, ?_, ?_, ?_, ?_⟩
  · rw [Nat.add_sub_cancel, saved, hw, Option.getD_some, C13_key_meaning]
  · intro q hq h0
    have hk := (C13_key q p).2 ⟨hq, h0⟩
    simp only [getProp, hk, d2 _ _ hd]
  · intro q w' m hq hm hmn
    have s' := getProp_ok g2 hm
    obtain ⟨j, rfl, -, hj, -⟩ := s'.slot
    have : j = i := by omega
    subst this
    have := s'.keep _ _ hw
    rw [hj] at this
    exact hq ((C13_key q p).1 (Option.some.inj this)).1
  · intro j hj hu
    have : w.tbl j = some (key (uprp j)) := by
      refine k2 _ _ (s.keep _ _ (k1 _ _ ?_))
      rw [i2 j hj, if_pos hu]
    rw [saved, this, Option.getD_some, C13_key_meaning]

/-- **C13 (overflow).** A request fails exactly if all slots are taken by other properties. -/
theorem C13_full (uprp : Nat → Prp) (upus : Nat → Bool) {l : List Prp} {u : Uprp} (hl : getProps (initProps uprp upus) l = some u) (p : Prp) :
    getProp u p = none ↔ ∀ i < 64, ∃ k, u.tbl i = some k ∧ k ≠ key p := by
  obtain ⟨g1, -, -⟩ := getProps_ok (initProps_ok uprp upus).1 hl
  unfold getProp
  constructor
  · intro h i hi
    split at h
    · simp at h
    · rename_i hd
      have hf := Option.map_eq_none_iff.1 h
      obtain ⟨k, hk⟩ := Option.ne_none_iff_exists'.1 (freeSlot_none hf i (Nat.zero_le _) (by omega))
      refine ⟨k, hk, ?_⟩
      rintro rfl
      obtain ⟨j, hj⟩ := g1.complete i _ hk
      rw [hd] at hj; simp at hj
  · intro h
    split
    · rename_i i hi
      obtain ⟨h1, h2⟩ := g1.sound _ _ hi
      obtain ⟨k, hk, hne⟩ := h i h1
      rw [h2] at hk
      exact absurd (Option.some.inj hk).symm hne
    · rw [Option.map_eq_none_iff]
      cases hf : freeSlot u 0 64 with
      | none => rfl
      | some i =>
        obtain ⟨-, h2, h3⟩ := freeSlot_some hf
        obtain ⟨k, hk, -⟩ := h i (by omega)
        rw [h3] at hk; simp at hk

/-! ## `UnitProperty(…)` -/

/-- The arguments of the constructor. -/
structure Args where
  hitpoint : Option (Fin 101)
  shield : Option (Fin 101)
  energy : Option (Fin 101)
  resource : Option (Fin 65536)
  hanger : Option (Fin 256)
  special : Fin 5 → Option Bool

def bitIf (b : Bool) (k : Nat) : BitVec 16 := if b then BitVec.twoPow 16 k else 0

/-- unitprp.py:32-135 `UnitProperty.__init__` -/
def unitProperty (a : Args) : Prp where
  player := 0
  hitpoint := (a.hitpoint.map fun x => BitVec.ofNat 8 x.val).getD 0
  shield := (a.shield.map fun x => BitVec.ofNat 8 x.val).getD 0
  energy := (a.energy.map fun x => BitVec.ofNat 8 x.val).getD 0
  resource := (a.resource.map fun x => BitVec.ofNat 32 x.val).getD 0
  hanger := (a.hanger.map fun x => BitVec.ofNat 16 x.val).getD 0
  prpvalid := bitIf a.hitpoint.isSome 1 ||| bitIf a.shield.isSome 2 ||| bitIf a.energy.isSome 3 ||| bitIf a.resource.isSome 4 ||| bitIf a.hanger.isSome 5
  sprpvalid := bitIf (a.special 0).isSome 0 ||| bitIf (a.special 1).isSome 1 ||| bitIf (a.special 2).isSome 2 ||| bitIf (a.special 3).isSome 3 |||
    bitIf (a.special 4).isSome 4
  sprpflag := bitIf (a.special 0 == some true) 0 ||| bitIf (a.special 1 == some true) 1 ||| bitIf (a.special 2 == some true) 2 |||
    bitIf (a.special 3 == some true) 3 ||| bitIf (a.special 4 == some true) 4
  unused := 0

theorem bitIf_bit (b : Bool) (k i : Nat) (hk : k < 16) : (bitIf b k).getLsbD i = (b && decide (i = k)) := by
  cases b
  · simp [bitIf]
  · rw [bitIf, if_pos rfl, bitPow k i _ rfl hk, Bool.true_and]

/-- **C13 (constructor).** The record made from the arguments means what the documentation says. -/
theorem C13_constructor (a : Args) : meaning (unitProperty a) =
    { hitpoint := (a.hitpoint.filter (· ≠ 100)).map fun x => BitVec.ofNat 8 x.val
      shield := (a.shield.filter (· ≠ 100)).map fun x => BitVec.ofNat 8 x.val
      energy := a.energy.map fun x => BitVec.ofNat 8 x.val
      resource := a.resource.map fun x => BitVec.ofNat 32 x.val
      hanger := (a.hanger.filter (· ≠ 0)).map fun x => BitVec.ofNat 16 x.val
      special := fun i => a.special i == some true } := by
  have h100 : ∀ x : Fin 101, (BitVec.ofNat 8 x.val = 100#8) ↔ x = 100 := by decide
  have h0 : ∀ x : Fin 256, (BitVec.ofNat 16 x.val = 0#16) ↔ x = 0 := by decide +kernel
  simp only [meaning, unitProperty, BitVec.getLsbD_or, bitIf_bit _ _ _ (show 0 < 16 by decide), bitIf_bit _ _ _ (show 1 < 16 by decide),
    bitIf_bit _ _ _ (show 2 < 16 by decide), bitIf_bit _ _ _ (show 3 < 16 by decide), bitIf_bit _ _ _ (show 4 < 16 by decide),
    bitIf_bit _ _ _ (show 5 < 16 by decide)]
  congr 1
  · cases a.hitpoint with
    | none => simp
    | some x =>
      by_cases hx : x = 100
      · subst hx; simp [Option.filter, h100]
      · simp [Option.filter, hx, h100]
  · cases a.shield with
    | none => simp
    | some x =>
      by_cases hx : x = 100
      · subst hx; simp [Option.filter, h100]
      · simp [Option.filter, hx, h100]
  · cases a.energy <;> simp
  · cases a.resource <;> simp
  · cases a.hanger with
    | none => simp
    | some x =>
      by_cases hx : x = 0
      · subst hx; simp [Option.filter]
      · simp [Option.filter, hx, h0]
  · funext i
    have : i = 0 ∨ i = 1 ∨ i = 2 ∨ i = 3 ∨ i = 4 := by
      have := i.2
      simp only [Fin.ext_iff]
      show i.val = 0 ∨ i.val = 1 ∨ i.val = 2 ∨ i.val = 3 ∨ i.val = 4
      omega
    have v : ((0 : Fin 5).val = 0 ∧ (1 : Fin 5).val = 1) ∧ (2 : Fin 5).val = 2 ∧ (3 : Fin 5).val = 3 ∧ (4 : Fin 5).val = 4 := by decide
    rcases this with rfl | rfl | rfl | rfl | rfl <;> simp only [v.1.1, v.1.2, v.2.1, v.2.2.1, v.2.2.2] <;> simp <;> intro h <;> rw [h] <;> rfl

/-! ## Example: two slots in use, the second request reuses slot 1, the third takes slot 3 -/

def exPrp (v hp sp : Nat) : Prp := ⟨BitVec.ofNat 16 sp, BitVec.ofNat 16 v, 0, BitVec.ofNat 8 hp, 0, 0, 0, 0, BitVec.ofNat 16 sp, 0⟩

def exUprp : Uprp := initProps (fun i => exPrp 2 (50 + i) 1) (fun i => i == 0 || i == 1 || i == 3)

example : ((getProp exUprp (exPrp 2 99 0)).bind fun a => (getProp a.1 (exPrp 2 51 33)).bind fun b => (getProp b.1 (exPrp 2 100 2)).map fun c =>
    (a.2, b.2, c.2)) = some (3, 2, 5) := by
  decide +kernel

end Eud.Map
