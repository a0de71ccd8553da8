import Verif.Machine.Basic
/-
EUD variables as triggers, EPD addressing, and programs made of several triggers.
-/

namespace Eud.SC

/-! ## EPD -/

/-- utils/etc.py:39 `EPD(p) = (p + (-0x58A364)) // 4`, reduced to 32 bits when it is
written into a trigger. -/
def epd (a : Nat) : W := BitVec.ofInt 32 (((a : Int) - 0x58A364) / 4)

/-- Addresses that can be used with EPD: aligned, 32-bit, and not the few dwords whose
EPD value collides with a player group (12 .. 26). -/
def EpdOK (a : Nat) : Prop := a % 4 = 0 ∧ a < 2 ^ 32 ∧ (a < deathTable + 48 ∨ deathTable + 108 ≤ a)

instance (a : Nat) : Decidable (EpdOK a) := by unfold EpdOK; infer_instance

theorem epd_toNat (a : Nat) (h : a % 4 = 0) (h2 : a < 2 ^ 32) :
    (epd a).toNat = if 0x58A364 ≤ a then (a - 0x58A364) / 4 else 2 ^ 32 - (0x58A364 - a) / 4 := by
  unfold epd
  rw [BitVec.toNat_ofInt]
  split <;> omega

/-- EPD addressing denotes the address it was made from. -/
theorem dstOf_epd {a : Nat} (h : EpdOK a) : dstOf (epd a) 0 = some (.mem a) := by
  obtain ⟨h1, h2, h3⟩ := h
  have ht := epd_toNat a h1 h2
  unfold dstOf
  simp only [deathTable] at *
  split at ht
  · rw [if_neg (by omega), if_pos (by omega)]
    congr 2
    have : (0 : BitVec 16).toNat = 0 := rfl
    omega
  · rw [if_neg (by omega), if_pos (by omega)]
    congr 2
    have : (0 : BitVec 16).toNat = 0 := rfl
    omega

/-! ## Plain actions and conditions on addresses -/

/-- stockact.py:856-858 `SetMemory` -/
def setMem (a : Nat) (md : Mod) (v : W) : Act := ⟨.mem a, md, v, 0xFFFFFFFF⟩
/-- stockact.py:880-884 `SetMemoryX` -/
def setMemX (a : Nat) (md : Mod) (v k : W) : Act := ⟨.mem a, md, v, k⟩
/-- stockact.py:867-868 `SetNextPtr` -/
def setNext (t dest : Nat) : Act := setMem (t + 4) .set (BitVec.ofNat 32 dest)
/-- stockcond.py `Memory` -/
def memory (a : Nat) (c : Cmp) (v : W) : Cnd := .check (.mem a) c v 0xFFFFFFFF
/-- stockcond.py `MemoryX` -/
def memoryX (a : Nat) (c : Cmp) (v k : W) : Cnd := .check (.mem a) c v k

theorem and_ones (x : W) : x &&& 0xFFFFFFFF = x := by
  have : (0xFFFFFFFF : W) = BitVec.allOnes 32 := by decide
  rw [this, BitVec.and_allOnes]

theorem modify_full (md : Mod) (o v : W) : modify md o v 0xFFFFFFFF = arith md o v := by
  have h : ~~~(0xFFFFFFFF : W) = 0#32 := by decide
  unfold modify
  simp only [and_ones, h, BitVec.and_zero, BitVec.zero_or]

@[simp] theorem setMem_apply (a : Nat) (md : Mod) (v : W) (m : Mem) :
    (setMem a md v).apply m = m.set a (arith md (m a) v) := by
  unfold setMem Act.apply
  simp only [modify_full, Dst.addr]

@[simp] theorem setMemX_apply (a : Nat) (md : Mod) (v k : W) (m : Mem) :
    (setMemX a md v k).apply m = m.set a (modify md (m a) v k) := rfl

@[simp] theorem memory_holds (a : Nat) (c : Cmp) (v : W) (m : Mem) :
    (memory a c v).holds m = compare c (m a) v := by
  simp only [memory, Cnd.holds, Dst.addr, and_ones]

/-! ## Variables -/

/-- Offsets used by a variable trigger at `v` (vbuf.py:64-106):
`nextptr` 4, type of the first condition in dword 20, mask 328, destination 344,
value 348, modifier/type 352, EUDX mark 356, type of the second action in dword 384,
flags 2376. -/
def varOffs : List Nat := [4, 20, 328, 344, 348, 352, 356, 384, 2376]

/-- Dwords of a variable that never change. -/
def varStatic (v x : Nat) : Prop := x = v + 20 ∨ x = v + 356 ∨ x = v + 384 ∨ x = v + 2376

/-- A well formed variable trigger at `v`, whatever its value, mask, destination,
modifier and `nextptr` are. -/
structure VarAt (m : Mem) (v : Nat) : Prop where
  cend : (m (v + 20)).extractLsb' 24 8 = 0
  typ : (m (v + 352)).extractLsb' 0 24 = 0x2D0000
  eudx : (m (v + 356)).extractLsb' 16 16 = 0x4353
  dis : (m (v + 356)).getLsbD 1 = false
  aend : (m (v + 384)).extractLsb' 16 8 = 0
  f0 : (m (v + 2376)).getLsbD 0 = false
  f2 : (m (v + 2376)).getLsbD 2 = true
  f3 : (m (v + 2376)).getLsbD 3 = false

/-- Current modifier of a variable. -/
def varMod (m : Mem) (v : Nat) : Option Mod := Mod.ofCode ((m (v + 352)).extractLsb' 24 8)
/-- Current destination of a variable. -/
def varDst (m : Mem) (v : Nat) : Option Dst := dstOf (m (v + 344)) 0

/-- What executing the variable's trigger does, given its modifier and destination. -/
def varAct (m : Mem) (v : Nat) (md : Mod) (d : Dst) : Act := ⟨d, md, m (v + 348), m (v + 328)⟩

theorem extract_mid {w : W} (h : w.extractLsb' 0 24 = 0x2D0000) :
    w.extractLsb' 16 8 = 45 ∧ w.extractLsb' 0 16 = 0 := by
  constructor
  · have : (w.extractLsb' 0 24).extractLsb' 16 8 = w.extractLsb' 16 8 := by
      ext i hi
      simp [BitVec.getElem_extractLsb']
    rw [← this, h]; decide
  · have : (w.extractLsb' 0 24).extractLsb' 0 16 = w.extractLsb' 0 16 := by
      ext i hi
      simp [BitVec.getElem_extractLsb']
    rw [← this, h]; decide

/-- **Executing a variable.** -/
theorem step_var {m : Mem} {v : Nat} (h : VarAt m v) {md : Mod} {d : Dst}
    (hm : varMod m v = some md) (hd : varDst m v = some d)
    (hs : d.addr m ≠ v + 384 ∧ d.addr m ≠ v + 2376) :
    step ⟨m, v⟩ = some ⟨(varAct m v md d).apply m, (((varAct m v md d).apply m) (v + 4)).toNat⟩ := by
  have hc : runConds m 16 (v + 8) = some true := by
    simp [runConds, decodeCond, h.cend]
  have htyp := extract_mid h.typ
  have ha : decodeAct m (v + 328) = .act (varAct m v md d) := by
    unfold decodeAct
    simp only [Nat.add_assoc, Nat.reduceAdd, htyp.1, htyp.2, h.dis]
    rw [show Mod.ofCode ((m (v + 352)).extractLsb' 24 8) = some md from hm,
      show dstOf (m (v + 344)) 0 = some d from hd]
    simp [effMask, h.eudx, varAct]
  have hn : ∀ x, x ≠ d.addr m → ((varAct m v md d).apply m) x = m x := by
    intro x hx
    unfold Act.apply
    exact set_ne hx
  have hstop : decodeAct ((varAct m v md d).apply m) (v + 328 + 32) = .stop := by
    unfold decodeAct
    simp only [Nat.add_assoc, Nat.reduceAdd]
    rw [hn _ (Ne.symm hs.1), h.aend]
    simp
  unfold step
  simp only [h.f3, h.f0, Bool.false_eq_true, if_false, hc, Nat.sub_zero, Nat.mul_zero, Nat.add_zero]
  have hr : runActs 64 m (v + 328) = some ((varAct m v md d).apply m) := by
    rw [runActs, ha]
    simp only
    rw [runActs, hstop]
  rw [hr]
  simp only
  have hf := hn (v + 2376) (Ne.symm hs.2)
  rw [flagsDone_id (by rw [hf]; exact h.f0) (by rw [hf]; exact h.f2), set_self]

/-- eudv.py:230-236 `SetModifier` -/
def setModifier (v : Nat) (md : Mod) : Act :=
  setMemX (v + 352) .set (md.code.setWidth 32 <<< 24) 0xFF000000
/-- eudv.py:202-204 `SetDest` (the argument is the EPD value) -/
def setDest (v : Nat) (e : W) : Act := setMem (v + 344) .set e

theorem ofCode_code (md : Mod) : Mod.ofCode md.code = some md := by cases md <;> rfl

theorem setModifier_word (w : W) (md : Mod) :
    (modify .set w (md.code.setWidth 32 <<< 24) 0xFF000000).extractLsb' 24 8 = md.code ∧
    (modify .set w (md.code.setWidth 32 <<< 24) 0xFF000000).extractLsb' 0 24 = w.extractLsb' 0 24 := by
  have hk : ∀ i, i < 32 → (0xFF000000 : W).getLsbD i = decide (24 ≤ i) := by decide
  constructor
  · ext i hi
    have h1 := hk (24 + i) (by omega)
    simp only [modify, arith, BitVec.getElem_extractLsb', BitVec.getLsbD_or, BitVec.getLsbD_and,
      BitVec.getLsbD_not, h1, BitVec.getLsbD_shiftLeft, BitVec.getLsbD_setWidth]
    simp [show 24 + i < 32 by omega, show i < 32 by omega, show ¬ 24 + i < 24 by omega,
      BitVec.getLsbD_eq_getElem hi]
  · ext i hi
    have h1 := hk (0 + i) (by omega)
    simp only [modify, BitVec.getElem_extractLsb', BitVec.getLsbD_or, BitVec.getLsbD_and,
      BitVec.getLsbD_not, h1]
    simp [show i < 32 by omega, show ¬ 24 ≤ i by omega]

/-- Setting the modifier to what it already is changes nothing. -/
theorem setModifier_noop {w : W} {md : Mod} (h : Mod.ofCode (w.extractLsb' 24 8) = some md) :
    modify .set w (md.code.setWidth 32 <<< 24) 0xFF000000 = w := by
  have hc : w.extractLsb' 24 8 = md.code := by
    unfold Mod.ofCode at h
    split at h
    · cases h; assumption
    · split at h
      · cases h; assumption
      · split at h
        · cases h; assumption
        · cases h
  have hw := setModifier_word w md
  ext i hi
  rcases Nat.lt_or_ge i 24 with hlt | hge
  · have := congrArg (fun b : BitVec 24 => b.getLsbD i) hw.2
    simp only [BitVec.getLsbD_extractLsb', hlt, decide_true, Bool.true_and, Nat.zero_add] at this
    rw [← BitVec.getLsbD_eq_getElem hi, ← BitVec.getLsbD_eq_getElem hi]
    exact this
  · have h1 := hw.1
    rw [← hc] at h1
    have := congrArg (fun b : BitVec 8 => b.getLsbD (i - 24)) h1
    simp only [BitVec.getLsbD_extractLsb', show i - 24 < 8 by omega, decide_true, Bool.true_and,
      show 24 + (i - 24) = i by omega] at this
    rw [← BitVec.getLsbD_eq_getElem hi, ← BitVec.getLsbD_eq_getElem hi]
    rw [← hc]
    exact this

/-- Variables stay well formed when the static dwords and the type bits do not change. -/
theorem VarAt.congr {m m' : Mem} {v : Nat} (h : VarAt m v) (hs : ∀ x, varStatic v x → m' x = m x)
    (ht : (m' (v + 352)).extractLsb' 0 24 = (m (v + 352)).extractLsb' 0 24) : VarAt m' v := by
  have e1 := hs (v + 20) (Or.inl rfl)
  have e2 := hs (v + 356) (Or.inr (Or.inl rfl))
  have e3 := hs (v + 384) (Or.inr (Or.inr (Or.inl rfl)))
  have e4 := hs (v + 2376) (Or.inr (Or.inr (Or.inr rfl)))
  exact ⟨by rw [e1]; exact h.cend, by rw [ht]; exact h.typ, by rw [e2]; exact h.eudx,
    by rw [e2]; exact h.dis, by rw [e3]; exact h.aend, by rw [e4]; exact h.f0,
    by rw [e4]; exact h.f2, by rw [e4]; exact h.f3⟩

/-- The dwords of two variables do not clash. -/
def VSep (v w : Nat) : Prop := ∀ a ∈ varOffs, ∀ b ∈ varOffs, a ≠ b → v + a ≠ w + b

/-- Variables of one buffer (72 bytes apart, vbuf.py:44-49) never clash. -/
theorem vsep_buffer (base i j : Nat) : VSep (base + 72 * i) (base + 72 * j) := by
  intro a ha b hb hab
  simp only [varOffs, List.mem_cons, List.not_mem_nil, or_false] at ha hb
  omega

/-! ## Programs -/

/-- A trigger of a program; `next = none` means that its `nextptr` is set at run time. -/
structure Blk where
  t : Nat
  T : Trig
  next : Option Nat

def Blk.foot (b : Blk) (x : Nat) : Prop := b.T.foot b.t x ∨ (x = b.t + 4 ∧ b.next.isSome = true)

structure BlkAt (m : Mem) (b : Blk) : Prop where
  trig : TrigAt m b.t b.T
  next : ∀ n, b.next = some n → m (b.t + 4) = BitVec.ofNat 32 n ∧ n < 2 ^ 32

def Loaded (m : Mem) (P : List Blk) : Prop := ∀ b ∈ P, BlkAt m b

/-- Dwords occupied by a program. -/
def progFoot (P : List Blk) (x : Nat) : Prop := ∃ b ∈ P, b.foot x

theorem Loaded.congr {m m' : Mem} {P : List Blk} (h : Loaded m P)
    (hm : ∀ x, progFoot P x → m' x = m x) : Loaded m' P := by
  intro b hb
  refine ⟨(h b hb).trig.congr (fun x hx => hm x ⟨b, hb, Or.inl hx⟩), ?_⟩
  intro n hn
  rw [hm (b.t + 4) ⟨b, hb, Or.inr ⟨rfl, by rw [hn]; rfl⟩⟩]
  exact (h b hb).next n hn

/-- One step inside a loaded program. -/
theorem Loaded.step {m : Mem} {P : List Blk} (h : Loaded m P) {b : Blk} (hb : b ∈ P) {n : Nat}
    (hn : b.next = some n)
    (hs : b.T.conds.all (·.holds m) = true → SafeActs (progFoot P) m b.T.acts) :
    Eud.SC.step ⟨m, b.t⟩ = some ⟨b.T.exec m, n⟩ ∧ Loaded (b.T.exec m) P := by
  have hfr : ∀ x, progFoot P x → b.T.exec m x = m x := fun x hx => Trig.exec_frame hs x hx
  have hL := h.congr hfr
  refine ⟨?_, hL⟩
  rw [step_trig (h b hb).trig (fun hc => (hs hc).mono (fun x hx => ⟨b, hb, Or.inl hx⟩))]
  have := (hL b hb).next n hn
  rw [this.1, BitVec.toNat_ofNat, Nat.mod_eq_of_lt this.2]

/-- One step when the `nextptr` is dynamic. -/
theorem Loaded.step_dyn {m : Mem} {P : List Blk} (h : Loaded m P) {b : Blk} (hb : b ∈ P)
    (hs : b.T.conds.all (·.holds m) = true → SafeActs (progFoot P) m b.T.acts) :
    Eud.SC.step ⟨m, b.t⟩ = some ⟨b.T.exec m, (b.T.exec m (b.t + 4)).toNat⟩ ∧ Loaded (b.T.exec m) P := by
  have hfr : ∀ x, progFoot P x → b.T.exec m x = m x := fun x hx => Trig.exec_frame hs x hx
  refine ⟨?_, h.congr hfr⟩
  rw [step_trig (h b hb).trig (fun hc => (hs hc).mono (fun x hx => ⟨b, hb, Or.inl hx⟩))]

/-- Straight-line code: each trigger links to the next one, the last one to `stop`. -/
def Linked : List Blk → Nat → Prop
  | [], _ => True
  | [b], stop => b.next = some stop
  | b :: c :: bs, stop => b.next = some c.t ∧ Linked (c :: bs) stop

def entry : List Blk → Nat → Nat
  | [], stop => stop
  | b :: _, _ => b.t

theorem Linked.cons {b : Blk} {bs : List Blk} {stop : Nat} (h : Linked (b :: bs) stop) :
    b.next = some (entry bs stop) ∧ Linked bs stop := by
  cases bs with
  | nil => exact ⟨h, trivial⟩
  | cons c cs => exact h

/-- The triggers of the block, run in order on `m`, all write outside of `F`. -/
def SafeTrigs (F : Nat → Prop) : Mem → List Blk → Prop
  | _, [] => True
  | m, b :: bs => (b.T.conds.all (·.holds m) = true → SafeActs F m b.T.acts) ∧
      SafeTrigs F (b.T.exec m) bs

/-- **Straight-line execution**: a chain of triggers that does not overwrite the
program runs as the composition of its triggers. -/
theorem run_chain {P : List Blk} : ∀ (bs : List Blk) (m : Mem) (stop : Nat), (∀ b ∈ bs, b ∈ P) →
    Linked bs stop → Loaded m P → SafeTrigs (progFoot P) m bs →
    stepN bs.length ⟨m, entry bs stop⟩ = some ⟨bs.foldl (fun m b => b.T.exec m) m, stop⟩ ∧
    Loaded (bs.foldl (fun m b => b.T.exec m) m) P
  | [], m, stop, _, _, hL, _ => ⟨rfl, hL⟩
  | b :: bs, m, stop, hsub, hlink, hL, hs => by
    have hl := hlink.cons
    obtain ⟨h1, h2⟩ := hL.step (hsub b (by simp)) hl.1 hs.1
    obtain ⟨h3, h4⟩ := run_chain bs (b.T.exec m) stop (fun x hx => hsub x (by simp [hx])) hl.2 h2 hs.2
    refine ⟨?_, h4⟩
    simp only [List.length_cons, stepN, entry, h1, Option.bind_some, List.foldl_cons]
    exact h3

end Eud.SC
