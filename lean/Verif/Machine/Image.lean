import Verif.Machine.SeqCompute
/-
C52: the dwords that `RawTrigger` writes are executed as the conditions and actions given;
C51: every variable of a variable buffer is a well formed variable trigger.

Dword level: the payload writer stores fields little endian and without gaps
(rust/src/allocator/pbuffer.rs:84-121), so `IIIHBBBBH` and `IIIIIIHBBBBH` are the five and
eight dwords below.
-/

namespace Eud.SC

/-- Player and unit fields for a destination. -/
def dstFields : Dst → W × BitVec 16
  | .mem a => (epd a, 0)
  | .cp u => (13, BitVec.ofNat 16 u)

def Dst.Valid : Dst → Prop
  | .mem a => EpdOK a
  | .cp u => u < 2 ^ 16

instance (d : Dst) : Decidable d.Valid := by cases d <;> (simp only [Dst.Valid]; infer_instance)

/-- action.py:83-103, stockact.py:673-684, 871-877: dword `j` of `SetDeaths` (full mask)
or `SetDeathsX`. -/
def actWord (a : Act) : Nat → W
  | 0 => if a.mask = 0xFFFFFFFF then 0 else a.mask
  | 4 => (dstFields a.dst).1
  | 5 => a.val
  | 6 => a.mod.code ++ (45 : BitVec 8) ++ (dstFields a.dst).2
  | 7 => (if a.mask = 0xFFFFFFFF then (0 : BitVec 16) else 0x4353) ++ (20 : BitVec 16)
  | _ => 0

/-- condition.py:48-66, stockcond.py:221-232, 337-347, rawtriggerdef.py:121-125: dword `j`
of `Deaths`, `DeathsX`, `Always` and `Never`. -/
def condWord : Cnd → Nat → W
  | .check _ _ _ k, 0 => if k = 0xFFFFFFFF then 0 else k
  | .check d _ _ _, 1 => (dstFields d).1
  | .check _ _ v _, 2 => v
  | .check d c _ _, 3 => (15 : BitVec 8) ++ c.code ++ (dstFields d).2
  | .check _ _ _ k, 4 => (if k = 0xFFFFFFFF then (0 : BitVec 16) else 0x4353) ++ (0 : BitVec 16)
  | .const b, 3 => (if b then (22 : BitVec 8) else 23) ++ (0 : BitVec 24)
  | _, _ => 0

def Cnd.Valid : Cnd → Prop
  | .check d _ _ _ => d.Valid
  | .const _ => True

/-- Destinations can be expressed, and the lists fit (rawtriggerdef.py:117-118, 135-136). -/
structure Blk.Valid (b : Blk) : Prop where
  cl : b.T.conds.length ≤ 16
  al : b.T.acts.length ≤ 64
  c : ∀ c ∈ b.T.conds, c.Valid
  a : ∀ a ∈ b.T.acts, a.dst.Valid
  n : ∀ n, b.next = some n → n < 2 ^ 32

/-- pbuffer.rs:135-174 `_write_trigger`: the dwords it writes (it leaves the rest of the
condition and action areas alone, where other objects may live). -/
structure Written (m : Mem) (b : Blk) : Prop where
  next : ∀ n, b.next = some n → m (b.t + 4) = BitVec.ofNat 32 n
  cond : ∀ i (h : i < b.T.conds.length), ∀ j < 5, m (b.t + 8 + 20 * i + 4 * j) = condWord b.T.conds[i] j
  cend : b.T.conds.length < 16 → ∀ j < 5, m (b.t + 8 + 20 * b.T.conds.length + 4 * j) = 0
  act : ∀ i (h : i < b.T.acts.length), ∀ j < 8, m (b.t + 328 + 32 * i + 4 * j) = actWord b.T.acts[i] j
  aend : b.T.acts.length < 64 → ∀ j < 8, m (b.t + 328 + 32 * b.T.acts.length + 4 * j) = 0
  flags : m (b.t + 2376) = 4

theorem cat_hi (a b : BitVec 8) (c : BitVec 16) : (a ++ b ++ c).extractLsb' 24 8 = a := by
  ext i hi
  simp only [BitVec.getElem_extractLsb', BitVec.getLsbD_append]
  rw [if_neg (by omega), if_neg (by omega), show 24 + i - 16 - 8 = i by omega, BitVec.getLsbD_eq_getElem hi]

theorem cat_mid (a b : BitVec 8) (c : BitVec 16) : (a ++ b ++ c).extractLsb' 16 8 = b := by
  ext i hi
  simp only [BitVec.getElem_extractLsb', BitVec.getLsbD_append]
  rw [if_neg (by omega), if_pos (by omega), show 16 + i - 16 = i by omega, BitVec.getLsbD_eq_getElem hi]

theorem cat_lo (a b : BitVec 8) (c : BitVec 16) : (a ++ b ++ c).extractLsb' 0 16 = c := by
  ext i hi
  simp only [BitVec.getElem_extractLsb', BitVec.getLsbD_append]
  rw [if_pos (by omega), show 0 + i = i by omega, BitVec.getLsbD_eq_getElem hi]

theorem cat16_hi (a c : BitVec 16) : (a ++ c : BitVec 32).extractLsb' 16 16 = a := by
  ext i hi
  simp only [BitVec.getElem_extractLsb', BitVec.getLsbD_append]
  rw [if_neg (by omega), show 16 + i - 16 = i by omega, BitVec.getLsbD_eq_getElem hi]

theorem dstOf_fields {d : Dst} (h : d.Valid) : dstOf (dstFields d).1 (dstFields d).2 = some d := by
  cases d with
  | mem a => exact dstOf_epd h
  | cp u =>
    simp only [Dst.Valid] at h
    unfold dstOf
    rw [if_pos (show (dstFields (Dst.cp u)).1.toNat = 13 from rfl)]
    simp only [dstFields, BitVec.toNat_ofNat, Nat.mod_eq_of_lt h]

theorem decodeAct_written {m : Mem} {a : Act} {x : Nat} (hv : a.dst.Valid)
    (h : ∀ j < 8, m (x + 4 * j) = actWord a j) : decodeAct m x = .act a := by
  have h0 := h 0 (by omega)
  have h4 := h 4 (by omega)
  have h5 := h 5 (by omega)
  have h6 := h 6 (by omega)
  have h7 := h 7 (by omega)
  simp only [Nat.mul_zero, Nat.add_zero, Nat.reduceMul, actWord] at h0 h4 h5 h6 h7
  unfold decodeAct
  simp only [h0, h4, h5, h6, h7, cat_hi, cat_mid, cat_lo, dstOf_fields hv, ofCode_code, effMask,
    cat16_hi]
  have hb : (((if a.mask = 0xFFFFFFFF then (0 : BitVec 16) else 0x4353) ++ (20 : BitVec 16)) :
      BitVec 32).getLsbD 1 = false := by
    rw [BitVec.getLsbD_append, if_pos (by omega)]; decide
  rw [hb]
  cases a with
  | mk d md v k =>
    simp only
    by_cases hk : k = 0xFFFFFFFF
    · subst hk; simp
    · simp [show ¬ k = 4294967295#32 from hk]

theorem cmp_ofCode_code (c : Cmp) : Cmp.ofCode c.code = some c := by cases c <;> rfl

theorem decodeCond_written {m : Mem} {c : Cnd} {x : Nat} (hv : c.Valid)
    (h : ∀ j < 5, m (x + 4 * j) = condWord c j) : decodeCond m x = .cond c := by
  have h0 := h 0 (by omega)
  have h1 := h 1 (by omega)
  have h2 := h 2 (by omega)
  have h3 := h 3 (by omega)
  have h4 := h 4 (by omega)
  simp only [Nat.mul_zero, Nat.add_zero, Nat.reduceMul] at h0 h1 h2 h3 h4
  cases c with
  | const b =>
    simp only [condWord] at h3 h4
    unfold decodeCond
    simp only [h3, h4]
    cases b <;> rfl
  | check d c v k =>
    simp only [condWord] at h0 h1 h2 h3 h4
    unfold decodeCond
    simp only [h0, h1, h2, h3, h4, cat_hi, cat_mid, cat_lo, dstOf_fields hv, cmp_ofCode_code, effMask,
      cat16_hi]
    have hb : (((if k = 0xFFFFFFFF then (0 : BitVec 16) else 0x4353) ++ (0 : BitVec 16)) :
        BitVec 32).getLsbD 9 = false := by
      rw [BitVec.getLsbD_append, if_pos (by omega)]; decide
    rw [hb]
    by_cases hk : k = 0xFFFFFFFF
    · subst hk; simp
    · simp [show ¬ k = 4294967295#32 from hk]

/-- **C52.** The dwords written for a trigger are read back by the game as exactly the
conditions, actions and next pointer that were given, for every trigger within the limits. -/
theorem C52_trigger_image {m : Mem} {b : Blk} (hv : b.Valid) (h : Written m b) : BlkAt m b := by
  refine ⟨⟨hv.cl, hv.al, ?_, ?_, ?_, ?_, ?_, ?_, ?_⟩, fun n hn => ⟨h.next n hn, hv.n n hn⟩⟩
  · intro i hi
    exact decodeCond_written (hv.c _ (List.getElem_mem hi)) (h.cond i hi)
  · intro hl
    have := h.cend hl 3 (by omega)
    simp only [Nat.reduceMul] at this
    unfold decodeCond
    simp [this]
  · intro i hi
    exact decodeAct_written (hv.a _ (List.getElem_mem hi)) (h.act i hi)
  · intro hl
    have := h.aend hl 6 (by omega)
    simp only [Nat.reduceMul] at this
    unfold decodeAct
    simp [this]
  all_goals rw [h.flags]; decide

/-- Dword at offset `o` of a trigger. -/
def trigWord (b : Blk) (o : Nat) : W :=
  if o = 4 then BitVec.ofNat 32 (b.next.getD 0)
  else if 8 ≤ o ∧ o < 328 then
    match b.T.conds[(o - 8) / 20]? with
    | some c => condWord c ((o - 8) % 20 / 4)
    | none => 0
  else if 328 ≤ o ∧ o < 2376 then
    match b.T.acts[(o - 328) / 32]? with
    | some a => actWord a ((o - 328) % 32 / 4)
    | none => 0
  else if o = 2376 then 4 else 0

/-- A memory with the given triggers in it, `m0` elsewhere. -/
def image (m0 : Mem) : List Blk → Mem
  | [] => m0
  | b :: P => fun x => if b.t ≤ x ∧ x < b.t + 2408 then trigWord b (x - b.t) else image m0 P x

theorem image_outside {m0 : Mem} : ∀ {P : List Blk} {x : Nat},
    (∀ b ∈ P, x < b.t ∨ b.t + 2408 ≤ x) → image m0 P x = m0 x
  | [], _, _ => rfl
  | b :: P, x, h => by
    have := h b (by simp)
    simp only [image]
    rw [if_neg (by omega)]
    exact image_outside (fun c hc => h c (by simp [hc]))

theorem image_inside {m0 : Mem} : ∀ {P : List Blk},
    P.Pairwise (fun b c => b.t + 2408 ≤ c.t ∨ c.t + 2408 ≤ b.t) → ∀ b ∈ P, ∀ o < 2408,
    image m0 P (b.t + o) = trigWord b o
  | [], _, _, hb, _, _ => by simp at hb
  | c :: P, hp, b, hb, o, ho => by
    rw [List.pairwise_cons] at hp
    simp only [List.mem_cons] at hb
    simp only [image]
    rcases hb with rfl | hb
    · rw [if_pos (by omega), show b.t + o - b.t = o by omega]
    · have := hp.1 b hb
      rw [if_neg (by omega)]
      exact image_inside hp.2 b hb o ho

/-- Triggers at disjoint addresses can all be in memory at once. -/
theorem image_loaded {m0 : Mem} {P : List Blk} (hv : ∀ b ∈ P, b.Valid)
    (hp : P.Pairwise (fun b c => b.t + 2408 ≤ c.t ∨ c.t + 2408 ≤ b.t)) : Loaded (image m0 P) P := by
  intro b hb
  have hi := image_inside (m0 := m0) hp b hb
  have hcl := (hv b hb).cl
  have hal := (hv b hb).al
  apply C52_trigger_image (hv b hb)
  refine ⟨?_, ?_, ?_, ?_, ?_, ?_⟩
  · intro n hn
    rw [hi 4 (by omega)]
    simp [trigWord, hn]
  · intro i h j hj
    rw [show b.t + 8 + 20 * i + 4 * j = b.t + (8 + 20 * i + 4 * j) by omega, hi _ (by omega)]
    unfold trigWord
    rw [if_neg (by omega), if_pos (by omega), show (8 + 20 * i + 4 * j - 8) / 20 = i by omega,
      show (8 + 20 * i + 4 * j - 8) % 20 / 4 = j by omega, List.getElem?_eq_getElem h]
  · intro h j hj
    rw [show b.t + 8 + 20 * b.T.conds.length + 4 * j = b.t + (8 + 20 * b.T.conds.length + 4 * j) by omega,
      hi _ (by omega)]
    unfold trigWord
    rw [if_neg (by omega), if_pos (by omega),
      show (8 + 20 * b.T.conds.length + 4 * j - 8) / 20 = b.T.conds.length by omega,
      List.getElem?_eq_none (by omega)]
  · intro i h j hj
    rw [show b.t + 328 + 32 * i + 4 * j = b.t + (328 + 32 * i + 4 * j) by omega, hi _ (by omega)]
    unfold trigWord
    rw [if_neg (by omega), if_neg (by omega), if_pos (by omega),
      show (328 + 32 * i + 4 * j - 328) / 32 = i by omega,
      show (328 + 32 * i + 4 * j - 328) % 32 / 4 = j by omega, List.getElem?_eq_getElem h]
  · intro h j hj
    rw [show b.t + 328 + 32 * b.T.acts.length + 4 * j = b.t + (328 + 32 * b.T.acts.length + 4 * j) by omega,
      hi _ (by omega)]
    unfold trigWord
    rw [if_neg (by omega), if_neg (by omega), if_pos (by omega),
      show (328 + 32 * b.T.acts.length + 4 * j - 328) / 32 = b.T.acts.length by omega,
      List.getElem?_eq_none (by omega)]
  · rw [hi 2376 (by omega)]
    simp [trigWord]

/-! ## Variable buffer -/

/-- vbuf.py:64-105 `EUDVarBuffer.WritePayload`: the dwords it writes, for initial values `vals`;
`p` is the address of the object (`GetObjectAddr`). -/
structure BufWritten (m : Mem) (p : Nat) (vals : List W) : Prop where
  /-- lines 65-74: five heads, 72 bytes apart, with a `nextptr` and a zero type byte -/
  next : ∀ i < 5, m (p + 72 * i) = 0
  nocond : ∀ i < 5, (m (p + 72 * i + 16)).extractLsb' 24 8 = 0
  /-- lines 76-96: one 72-byte record per variable, starting at 324 -/
  mask : ∀ i < vals.length, m (p + 324 + 72 * i) = 0xFFFFFFFF
  z1 : ∀ i < vals.length, ∀ j < 3, m (p + 324 + 72 * i + 4 + 4 * j) = 0
  dest : ∀ i < vals.length, m (p + 324 + 72 * i + 16) = 0
  val : ∀ i (h : i < vals.length), m (p + 324 + 72 * i + 20) = vals[i]
  typ : ∀ i < vals.length, m (p + 324 + 72 * i + 24) = 0x072D0000
  eudx : ∀ i < vals.length, m (p + 324 + 72 * i + 28) = 0x43530000
  flags : ∀ i < vals.length, m (p + 324 + 72 * i + 32) = 4
  z2 : ∀ i < vals.length, ∀ j < 9, m (p + 324 + 72 * i + 36 + 4 * j) = 0
  /-- lines 98-107: flags of the last 28 variables -/
  tail : ∀ i < 28, m (p + 324 + 72 * (vals.length + i) + 32) = 4

/-- **C51.** Every variable of the buffer is a well formed variable trigger which holds its
initial value and has full mask, `SetTo` and no target; this uses the overlap of the
72-byte records, so that the `nextptr`, the condition list end and the flags of one
variable are stored in the records of others. -/
theorem C51_variable_buffer {m : Mem} {p : Nat} {vals : List W} (h : BufWritten m p vals) (hp : 4 ≤ p)
    (i : Nat) (hi : i < vals.length) :
    let v := p - 4 + 72 * i
    VarAt m v ∧ m (v + 348) = vals[i] ∧ m (v + 328) = 0xFFFFFFFF ∧ varMod m v = some .set ∧
      m (v + 4) = 0 ∧ m (v + 344) = 0 := by
  intro v
  have e328 : v + 328 = p + 324 + 72 * i := by omega
  have e344 : v + 344 = p + 324 + 72 * i + 16 := by omega
  have e348 : v + 348 = p + 324 + 72 * i + 20 := by omega
  have e352 : v + 352 = p + 324 + 72 * i + 24 := by omega
  have e356 : v + 356 = p + 324 + 72 * i + 28 := by omega
  have h352 := h.typ i hi
  have h356 := h.eudx i hi
  -- end of the condition list: head i, or record i - 5
  have hc : (m (v + 20)).extractLsb' 24 8 = 0 := by
    by_cases h5 : i < 5
    · have := h.nocond i h5
      rw [show v + 20 = p + 72 * i + 16 by omega]; exact this
    · rw [show v + 20 = p + 324 + 72 * (i - 5) + 36 + 4 * 4 by omega, h.z2 (i - 5) (by omega) 4 (by omega)]
      decide
  have hn : m (v + 4) = 0 := by
    by_cases h5 : i < 5
    · rw [show v + 4 = p + 72 * i by omega]; exact h.next i h5
    · rw [show v + 4 = p + 324 + 72 * (i - 5) + 36 + 4 * 0 by omega]
      exact h.z2 (i - 5) (by omega) 0 (by omega)
  have ha : m (v + 384) = 0 := by
    rw [show v + 384 = p + 324 + 72 * i + 36 + 4 * 5 by omega]
    exact h.z2 i hi 5 (by omega)
  have hf : m (v + 2376) = 4 := by
    by_cases hl : i + 28 < vals.length
    · rw [show v + 2376 = p + 324 + 72 * (i + 28) + 32 by omega]
      exact h.flags (i + 28) hl
    · rw [show v + 2376 = p + 324 + 72 * (vals.length + (i + 28 - vals.length)) + 32 by omega]
      exact h.tail _ (by omega)
  refine ⟨⟨hc, ?_, ?_, ?_, ?_, ?_, ?_, ?_⟩, ?_, ?_, ?_, hn, ?_⟩
  · rw [e352, h352]; decide
  · rw [e356, h356]; decide
  · rw [e356, h356]; decide
  · rw [ha]; decide
  · rw [hf]; decide
  · rw [hf]; decide
  · rw [hf]; decide
  · rw [e348, h.val i hi]
  · rw [e328, h.mask i hi]
  · unfold varMod; rw [e352, h352]; decide
  · rw [e344, h.dest i hi]

/-- Dword at offset `o` of the buffer object. -/
def bufWord (vals : List W) (o : Nat) : W :=
  if o < 324 then 0
  else
    let i := (o - 324) / 72
    let j := (o - 324) % 72
    if j = 32 then 4
    else match vals[i]? with
      | none => 0
      | some w =>
        if j = 0 then 0xFFFFFFFF else if j = 20 then w else if j = 24 then 0x072D0000
        else if j = 28 then 0x43530000 else 0

/-- A memory with a variable buffer at `p`. -/
def bufImage (m0 : Mem) (p : Nat) (vals : List W) : Mem := fun x =>
  if p ≤ x ∧ x < p + 2404 + 72 * vals.length then bufWord vals (x - p) else m0 x

theorem bufImage_written (m0 : Mem) (p : Nat) (vals : List W) : BufWritten (bufImage m0 p vals) p vals := by
  have hin : ∀ o, o < 2404 + 72 * vals.length → bufImage m0 p vals (p + o) = bufWord vals o := by
    intro o ho
    unfold bufImage
    rw [if_pos (by omega), show p + o - p = o by omega]
  have hrec : ∀ i < vals.length, ∀ j < 72, bufWord vals (324 + 72 * i + j) =
      if j = 32 then 4 else match vals[i]? with
      | none => 0
      | some w =>
        if j = 0 then 0xFFFFFFFF else if j = 20 then w else if j = 24 then 0x072D0000
        else if j = 28 then 0x43530000 else 0 := by
    intro i hi j hj
    unfold bufWord
    rw [if_neg (by omega)]
    simp only [show (324 + 72 * i + j - 324) / 72 = i by omega, show (324 + 72 * i + j - 324) % 72 = j by omega]
  have hfld : ∀ i (h : i < vals.length), ∀ j < 72, bufImage m0 p vals (p + 324 + 72 * i + j) =
      if j = 32 then 4 else if j = 0 then 0xFFFFFFFF else if j = 20 then vals[i] else
        if j = 24 then 0x072D0000 else if j = 28 then 0x43530000 else 0 := by
    intro i hi j hj
    rw [show p + 324 + 72 * i + j = p + (324 + 72 * i + j) by omega, hin _ (by omega), hrec i hi j hj,
      List.getElem?_eq_getElem hi]
  refine ⟨?_, ?_, ?_, ?_, ?_, ?_, ?_, ?_, ?_, ?_, ?_⟩
  · intro i hi
    rw [hin _ (by omega)]
    simp [bufWord, show 72 * i < 324 by omega]
  · intro i hi
    rw [show p + 72 * i + 16 = p + (72 * i + 16) by omega, hin _ (by omega)]
    simp [bufWord, show 72 * i + 16 < 324 by omega]
  · intro i hi
    rw [show p + 324 + 72 * i = p + 324 + 72 * i + 0 by omega, hfld i hi 0 (by omega)]; simp
  · intro i hi j hj
    rw [show p + 324 + 72 * i + 4 + 4 * j = p + 324 + 72 * i + (4 + 4 * j) by omega,
      hfld i hi (4 + 4 * j) (by omega), if_neg (by omega), if_neg (by omega), if_neg (by omega),
      if_neg (by omega), if_neg (by omega)]
  · intro i hi
    rw [hfld i hi 16 (by omega)]; simp
  · intro i hi
    rw [hfld i hi 20 (by omega)]; simp
  · intro i hi
    rw [hfld i hi 24 (by omega)]; simp
  · intro i hi
    rw [hfld i hi 28 (by omega)]; simp
  · intro i hi
    rw [hfld i hi 32 (by omega)]; simp
  · intro i hi j hj
    rw [show p + 324 + 72 * i + 36 + 4 * j = p + 324 + 72 * i + (36 + 4 * j) by omega,
      hfld i hi (36 + 4 * j) (by omega), if_neg (by omega), if_neg (by omega), if_neg (by omega),
      if_neg (by omega), if_neg (by omega)]
  · intro i hi
    rw [show p + 324 + 72 * (vals.length + i) + 32 = p + (324 + 72 * (vals.length + i) + 32) by omega,
      hin _ (by omega)]
    unfold bufWord
    rw [if_neg (by omega)]
    simp only [show (324 + 72 * (vals.length + i) + 32 - 324) % 72 = 32 by omega, if_true]

end Eud.SC
