import Verif.Lib.MemBase
/-
C34: writing memory.  `setdw_epd` (memio/dwepdio.py), actions with variable fields, and the bytes of a dword.
-/

namespace Eud.SC

/-! ## Bytes -/

/-- The byte at address `a`. -/
def byteAt (s : Mem) (a : Nat) : BitVec 8 := (s (a / 4 * 4)).extractLsb' (8 * (a % 4)) 8

/-- The mask of `n` bytes from byte `i` on: `0xFF << (8 * i)`, `0xFFFF << (8 * i)`. -/
def byteMask (n i : Nat) : W := BitVec.ofNat 32 ((256 ^ n - 1) * 256 ^ i)

theorem byteMask_bit (n i j : Nat) (hj : j < 32) : (byteMask n i).getLsbD j = (decide (8 * i ≤ j) && decide (j < 8 * i + 8 * n)) := by
  have : byteMask n i = fld (8 * n) (8 * i) := by
    unfold byteMask fld
    rw [Nat.shiftLeft_eq, Nat.pow_mul, Nat.pow_mul]
  rw [this, fld_bit _ _ _ hj]

/-- A masked assignment of a shifted value: the bytes of the value go to the bytes of the mask. -/
theorem set_bytes (w x : W) (n i j : Nat) (hj : j < 4) :
    (modify .set w (x <<< (8 * i)) (byteMask n i)).extractLsb' (8 * j) 8 = if i ≤ j ∧ j < i + n then x.extractLsb' (8 * (j - i)) 8 else w.extractLsb' (8 * j) 8 := by
  apply BitVec.eq_of_getLsbD_eq
  intro k hk
  simp only [BitVec.getLsbD_extractLsb', hk, decide_true, Bool.true_and]
  rw [modify_bit_set _ _ _ _ (by omega), byteMask_bit _ _ _ (by omega), BitVec.getLsbD_shiftLeft]
  by_cases h : i ≤ j ∧ j < i + n
  · rw [if_pos h, if_pos (by simp only [Bool.and_eq_true, decide_eq_true_eq]; omega), BitVec.getLsbD_extractLsb']
    have e : 8 * j + k - 8 * i = 8 * (j - i) + k := by omega
    have a : ¬ (8 * j + k < 8 * i) := by omega
    have b : 8 * j + k < 32 := by omega
    simp [hk, e, a, b]
  · rw [if_neg h, if_neg (by simp only [Bool.and_eq_true, decide_eq_true_eq]; omega), BitVec.getLsbD_extractLsb']
    simp [hk]

/-- The three modifiers on a field of `m` bits: addition wraps within the field, subtraction stops at zero. -/
def arithN {m : Nat} (md : Mod) (o v : BitVec m) : BitVec m :=
  match md with
  | .set => v
  | .add => o + v
  | .sub => if o < v then 0 else o - v

theorem and_fld (w : W) (m k : Nat) (h : k + m ≤ 32) : (w &&& fld m k).toNat = (w.extractLsb' k m).toNat * 2 ^ k := by
  have e : w &&& fld m k = (w.extractLsb' k m).setWidth 32 <<< k := by
    apply BitVec.eq_of_getLsbD_eq
    intro i hi
    rw [BitVec.getLsbD_and, fld_bit _ _ _ hi, BitVec.getLsbD_shiftLeft, BitVec.getLsbD_setWidth, BitVec.getLsbD_extractLsb']
    by_cases h1 : k ≤ i
    · have : k + (i - k) = i := by omega
      rw [this]
      by_cases h2 : i < k + m
      · simp only [h1, h2, hi, show i - k < m by omega, show i - k < 32 by omega, show ¬ i < k by omega, decide_true, decide_false, Bool.and_true, Bool.true_and, Bool.not_false]
      · simp only [h1, h2, hi, show ¬ i - k < m by omega, decide_true, decide_false, Bool.and_false, Bool.false_and, Bool.true_and]
    · simp only [h1, hi, show i < k by omega, decide_true, decide_false, Bool.and_false, Bool.false_and, Bool.not_true]
  have hl := (w.extractLsb' k m).isLt
  have hp : 2 ^ m * 2 ^ k ≤ 2 ^ 32 := by rw [← Nat.pow_add]; exact Nat.pow_le_pow_right (by omega) (by omega)
  have hlt : (w.extractLsb' k m).toNat * 2 ^ k < 2 ^ 32 := Nat.lt_of_lt_of_le (Nat.mul_lt_mul_of_pos_right hl (Nat.two_pow_pos k)) hp
  rw [e, BitVec.toNat_shiftLeft, BitVec.toNat_setWidth, Nat.shiftLeft_eq]
  rw [Nat.mod_eq_of_lt (Nat.lt_of_le_of_lt (Nat.le_mul_of_pos_right _ (Nat.two_pow_pos k)) hlt), Nat.mod_eq_of_lt hlt]

theorem shl_field (x : W) (m k : Nat) (h : k + m ≤ 32) : (x <<< k).extractLsb' k m = x.setWidth m := by
  apply BitVec.eq_of_getLsbD_eq
  intro i hi
  rw [BitVec.getLsbD_extractLsb', BitVec.getLsbD_shiftLeft, BitVec.getLsbD_setWidth]
  have : k + i < 32 := by omega
  simp [hi, this]

/-- A masked operation with a shifted value works on the field of the mask. -/
theorem modify_field (md : Mod) (w x : W) (m k : Nat) (h : k + m ≤ 32) :
    (modify md w (x <<< k) (fld m k)).extractLsb' k m = arithN md (w.extractLsb' k m) (x.setWidth m) := by
  have e1 : (modify md w (x <<< k) (fld m k)).extractLsb' k m = (arith md (w &&& fld m k) (x <<< k &&& fld m k)).extractLsb' k m := by
    apply BitVec.eq_of_getLsbD_eq
    intro i hi
    have hf : (fld m k).getLsbD (k + i) = true := by rw [fld_bit _ _ _ (by omega)]; simp; omega
    simp [modify, hi, hf]
  rw [e1, ← shl_field x m k h]
  generalize x <<< k = y
  have a1 := and_fld w m k h
  have a2 := and_fld y m k h
  have l1 := (w.extractLsb' k m).isLt
  have l2 := (y.extractLsb' k m).isLt
  have hp : 2 ^ 32 = 2 ^ (m + (32 - k - m)) * 2 ^ k := by rw [← Nat.pow_add]; congr 1; omega
  have e32 : ∀ z, z * 2 ^ k % 2 ^ 32 / 2 ^ k % 2 ^ m = z % 2 ^ m := by
    intro z
    rw [hp, Nat.mul_mod_mul_right, Nat.mul_div_cancel _ (Nat.two_pow_pos k), Nat.pow_add, Nat.mod_mul_right_mod]
  apply BitVec.eq_of_toNat_eq
  cases md with
  | set =>
    simp only [arith, arithN, BitVec.extractLsb'_toNat, Nat.shiftRight_eq_div_pow]
    rw [a2]
    rw [Nat.mul_div_cancel _ (Nat.two_pow_pos k), Nat.mod_eq_of_lt l2, BitVec.extractLsb'_toNat, Nat.shiftRight_eq_div_pow]
  | add =>
    simp only [arith, arithN]
    rw [BitVec.extractLsb'_toNat, BitVec.toNat_add, a1, a2, Nat.shiftRight_eq_div_pow, ← Nat.add_mul, e32, BitVec.toNat_add]
  | sub =>
    simp only [arith, arithN, BitVec.lt_def, a1, a2, Nat.mul_lt_mul_right (Nat.two_pow_pos k)]
    split
    · simp
    · rename_i hlt
      rw [BitVec.extractLsb'_toNat, BitVec.toNat_sub_of_le (by rw [BitVec.le_def, a1, a2]; exact Nat.mul_le_mul_right _ (by omega)), a1, a2, ← Nat.sub_mul,
        Nat.shiftRight_eq_div_pow, Nat.mul_div_cancel _ (Nat.two_pow_pos k), BitVec.toNat_sub_of_le (by rw [BitVec.le_def]; omega)]
      exact Nat.mod_eq_of_lt (by omega)

/-- Bits outside of the mask are kept. -/
theorem modify_out (md : Mod) (w v mask : W) (i : Nat) (h : mask.getLsbD i = false) : (modify md w v mask).getLsbD i = w.getLsbD i := by
  by_cases hi : i < 32
  · simp only [modify, BitVec.getLsbD_or, BitVec.getLsbD_and, BitVec.getLsbD_not, h, hi, decide_true, Bool.not_false, Bool.and_true, Bool.and_false, Bool.or_false]
  · rw [BitVec.getLsbD_of_ge _ _ (by omega), BitVec.getLsbD_of_ge _ _ (by omega)]

theorem byteMask_fld (n i : Nat) : byteMask n i = fld (8 * n) (8 * i) := by
  unfold byteMask fld
  rw [Nat.shiftLeft_eq, Nat.pow_mul, Nat.pow_mul]

/-- `w'` is `w` with its `n` bytes from byte `i` on, taken as one number, set to `x`, added to or subtracted from; the other bits are as before. -/
def FieldOp (md : Mod) (n i : Nat) (x w w' : W) : Prop :=
  w'.extractLsb' (8 * i) (8 * n) = arithN md (w.extractLsb' (8 * i) (8 * n)) (x.setWidth (8 * n)) ∧ ∀ j, (j < 8 * i ∨ 8 * i + 8 * n ≤ j) → w'.getLsbD j = w.getLsbD j

theorem field_op (md : Mod) (w x : W) {n i : Nat} (h : i + n ≤ 4) : FieldOp md n i x w (modify md w (x <<< (8 * i)) (byteMask n i)) := by
  rw [byteMask_fld]
  refine ⟨modify_field md w x _ _ (by omega), fun j hj => ?_⟩
  by_cases h32 : j < 32
  · refine modify_out md w _ _ j ?_
    rw [fld_bit _ _ _ h32]
    simp only [Bool.and_eq_false_iff, decide_eq_false_iff_not]
    omega
  · rw [BitVec.getLsbD_of_ge _ _ (by omega), BitVec.getLsbD_of_ge _ _ (by omega)]

/-! ## EPDs -/

/-- An EPD that is not one of the numbers that mean groups of players (12 to 26). -/
def PlainEpd (e : W) : Prop := e.toNat < 12 ∨ 27 ≤ e.toNat

instance (e : W) : Decidable (PlainEpd e) := inferInstanceAs (Decidable (_ ∨ _))

theorem dstOf_plain {e : W} (h : PlainEpd e) : dstOf e 0 = some (.mem (epdAddr e)) := by
  unfold dstOf
  rw [if_neg (by rcases h with h | h <;> omega), if_pos (show e.toNat < 12 ∨ 27 ≤ e.toNat from h)]
  rfl

/-! ## Actions with variable fields -/

/-- trigger/tpatcher.py: a variable in a field of the action at `p` is copied to the dword at offset `o` before. -/
def fillAsg (p o : Nat) : Src → List Asg
  | .const _ => []
  | .var v => [⟨p + o, .set, .var v⟩]

/-- A field that is known when the map is made. -/
def Src.known : Src → Option W
  | .const c => some c
  | .var _ => none

/-- `SetDeathsX(e, md, x, 0, k)` at `p`, for constants and variables `e`, `x`, `k`. -/
def actX (p : Nat) (md : Mod) (e x k : Src) : PA := ⟨⟨e.known.map fun c => .mem (epdAddr c), md, x.known, k.known⟩, some p⟩

/-- `DoActions(SetDeathsX(e, md, x, 0, k))` -/
def setdwx (p : Nat) (md : Mod) (e x k : Src) : Stmt := .seq (.asg (fillAsg p 16 e ++ fillAsg p 20 x ++ fillAsg p 0 k)) (.trig [] [actX p md e x k])

/-- A variable among the operands, which is copied to offset `o` of the action at `p`. -/
def SrcOk (L : Layout) (p o : Nat) (src : Src) : Prop := ∀ v, src = .var v → v ∈ L.P.vars ∧ v + 348 ∉ [p, p + 16, p + 20] ∧ L.cell (p + o)

/-- **C34, actions with variable fields**: exactly the addressed dword changes, by the operation restricted to the mask. -/
theorem C34_action {L : Layout} {p : Nat} {md : Mod} {e x k : Src} (he : SrcOk L p 16 e) (hx : SrcOk L p 20 x) (hk : SrcOk L p 0 k)
    {s : Mem} (hpl : PlainEpd (e.valM s)) (hc : L.cell (epdAddr (e.valM s))) (hn : epdAddr (e.valM s) ∉ [p, p + 16, p + 20]) :
    Does L (setdwx p md e x k) s fun s' => s' (epdAddr (e.valM s)) = modify md (s (epdAddr (e.valM s))) (x.valM s) (k.valM s) ∧
      Only [epdAddr (e.valM s), p, p + 16, p + 20] s s' := by
  simp only [List.mem_cons, List.not_mem_nil, or_false, not_or] at hn
  have val : ∀ {src : Src} {o : Nat}, SrcOk L p o src → ∀ s1, Only [p, p + 16, p + 20] s s1 → src.valM s1 = src.valM s := by
    intro src _ h s1 o
    cases src with
    | const c => rfl
    | var v => exact o _ (h v rfl).2.1
  -- the fillers
  have key : ∀ (as : List Asg) (s1 : Mem), (∀ g ∈ as, ∃ src o, g = ⟨p + o, .set, src⟩ ∧ SrcOk L p o src ∧ o ∈ [0, 16, 20] ∧ ∃ v, src = .var v) → Only [p, p + 16, p + 20] s s1 →
      Only [p, p + 16, p + 20] s (runAsg as s1) ∧ ∀ o, (∀ src, (⟨p + o, .set, src⟩ : Asg) ∈ as → (∀ src', (⟨p + o, .set, src'⟩ : Asg) ∈ as → src' = src) → runAsg as s1 (p + o) = src.valM s) ∧
        ((∀ src, (⟨p + o, .set, src⟩ : Asg) ∉ as) → runAsg as s1 (p + o) = s1 (p + o)) := by
    intro as
    induction as with
    | nil => intro s1 _ h; exact ⟨h, fun o => ⟨fun src h => by simp at h, fun _ => rfl⟩⟩
    | cons g as ih =>
      intro s1 h ho
      obtain ⟨src, o, rfl, h1, h2, -⟩ := h g (by simp)
      have ho' : Only [p, p + 16, p + 20] s (s1.set (p + o) (src.valM s1)) := ho.set (by simp at h2 ⊢; omega) _
      obtain ⟨i1, i2⟩ := ih _ (fun g hg => h g (by simp [hg])) ho'
      refine ⟨i1, fun o1 => ⟨fun src' hm hu => ?_, fun hm => ?_⟩⟩
      · simp only [runAsg, arith]
        by_cases hin : ∃ src2, (⟨p + o1, .set, src2⟩ : Asg) ∈ as
        · obtain ⟨src2, h2⟩ := hin
          have : src2 = src' := hu _ (by simp [h2])
          subst this
          exact (i2 o1).1 _ h2 fun s3 h3 => hu _ (by simp [h3])
        · rw [(i2 o1).2 fun src2 h2 => hin ⟨src2, h2⟩]
          have : (⟨p + o1, .set, src'⟩ : Asg) = ⟨p + o, .set, src⟩ := by
            rcases List.mem_cons.1 hm with h | h
            · exact h
            · exact absurd ⟨_, h⟩ hin
          simp only [Asg.mk.injEq, true_and] at this
          obtain ⟨e1, rfl⟩ := this
          rw [e1, set_eq, val h1 _ ho]
      · simp only [runAsg, arith]
        rw [(i2 o1).2 fun src2 h2 => hm src2 (by simp [h2]), set_ne]
        intro e
        exact hm src (by rw [e]; simp)
  have hform : ∀ g ∈ fillAsg p 16 e ++ fillAsg p 20 x ++ fillAsg p 0 k, ∃ src o, g = ⟨p + o, .set, src⟩ ∧ SrcOk L p o src ∧ o ∈ [0, 16, 20] ∧ ∃ v, src = .var v := by
    intro g hg
    simp only [List.mem_append] at hg
    have one : ∀ (src : Src) (o : Nat), SrcOk L p o src → o ∈ [0, 16, 20] → g ∈ fillAsg p o src → ∃ src o, g = ⟨p + o, .set, src⟩ ∧ SrcOk L p o src ∧ o ∈ [0, 16, 20] ∧ ∃ v, src = .var v := by
      intro src o h1 h2 h3
      cases src with
      | const c => simp [fillAsg] at h3
      | var v => simp only [fillAsg, List.mem_singleton] at h3; exact ⟨_, _, h3, h1, h2, v, rfl⟩
    rcases hg with (hg | hg) | hg
    · exact one _ _ he (by simp) hg
    · exact one _ _ hx (by simp) hg
    · exact one _ _ hk (by simp) hg
  obtain ⟨k1, k2⟩ := key _ s hform (Only.refl _ s)
  have fe : ∀ v, e = .var v → runAsg (fillAsg p 16 e ++ fillAsg p 20 x ++ fillAsg p 0 k) s (p + 16) = s (v + 348) := by
    rintro v rfl
    refine (k2 16).1 (.var v) (by simp [fillAsg]) ?_
    intro src' h
    cases x <;> cases k <;> simp [fillAsg] at h <;> exact h
  have fx : ∀ v, x = .var v → runAsg (fillAsg p 16 e ++ fillAsg p 20 x ++ fillAsg p 0 k) s (p + 20) = s (v + 348) := by
    rintro v rfl
    refine (k2 20).1 (.var v) (by simp [fillAsg]) ?_
    intro src' h
    cases e <;> cases k <;> simp [fillAsg] at h <;> exact h
  have fk : ∀ v, k = .var v → runAsg (fillAsg p 16 e ++ fillAsg p 20 x ++ fillAsg p 0 k) s p = s (v + 348) := by
    rintro v rfl
    refine (k2 0).1 (.var v) (by simp [fillAsg]) ?_
    intro src' h
    cases e <;> cases x <;> simp [fillAsg] at h <;> exact h
  generalize hgs : fillAsg p 16 e ++ fillAsg p 20 x ++ fillAsg p 0 k = gs at *
  unfold setdwx
  rw [hgs]
  refine Does.seq (Does.asg ?_ ?_ ?_)
  · intro g hg
    obtain ⟨src, o, rfl, h, -, v, hv⟩ := hform g hg
    exact (h v hv).2.2
  · intro g hg v hv
    obtain ⟨src, o, rfl, h, -⟩ := hform g hg
    exact (h v hv).1
  · generalize runAsg gs s = s1 at *
    have hd : ((actX p md e x k).a.res s1 p) = ⟨.mem (epdAddr (e.valM s)), md, x.valM s, k.valM s⟩ := by
      have e1 : (e.known.map fun c => Dst.mem (epdAddr c)).getD ((dstOf (s1 (p + 16)) 0).getD (.mem 0)) = .mem (epdAddr (e.valM s)) := by
        cases e with
        | const c => rfl
        | var v =>
          simp only [Src.known, Option.map_none, Option.getD_none, fe v rfl]
          rw [show s (v + 348) = Src.valM s (.var v) from rfl, dstOf_plain hpl]
          rfl
      have e2 : x.known.getD (s1 (p + 20)) = x.valM s := by
        cases x with
        | const c => rfl
        | var v => exact fx v rfl
      have e3 : k.known.getD (s1 p) = k.valM s := by
        cases k with
        | const c => rfl
        | var v => exact fk v rfl
      simp only [actX, SAct.res, e1, e2, e3]
    have ev : s1 (epdAddr (e.valM s)) = s (epdAddr (e.valM s)) := k1 _ (by simp [hn])
    refine Does.acts ⟨?_, ?_, trivial⟩ ⟨?_, ?_⟩
    · intro h
      cases e with
      | const c => simp [actX, Src.known] at h
      | var v =>
        simp only [actX, Option.getD_some, fe v rfl]
        rw [show s (v + 348) = Src.valM s (.var v) from rfl, dstOf_plain hpl]
        rfl
    · simp only [show (actX p md e x k).pos.getD 0 = p from rfl, hd]
      exact hc
    · simp only [runPA_cons, runPA_nil, PA.run, show (actX p md e x k).pos.getD 0 = p from rfl, hd, Act.apply, Dst.addr, set_eq, ev]
    · intro y hy
      simp only [List.mem_cons, List.not_mem_nil, or_false, not_or] at hy
      simp only [runPA_cons, runPA_nil, PA.run, show (actX p md e x k).pos.getD 0 = p from rfl, hd, Act.apply, Dst.addr]
      rw [set_ne hy.1]
      exact k1 y (by simp [hy])

/-! ## `setdw_epd` -/

/-- The dword at the EPD `e` is changed by `x`. -/
def SetDwRel (L : Layout) (md : Mod) (e x : Src) (s s' : Mem) : Prop :=
  PlainEpd (e.valM s) ∧ L.cell (epdAddr (e.valM s)) ∧ s' = s.set (epdAddr (e.valM s)) (arith md (s (epdAddr (e.valM s))) (x.valM s))

/-- dwepdio.py:101-132 `setdw_epd(e, md, x)`; with a constant `x` it is an action at `p`.  The case of one and the same variable for both is `setdwSame`. -/
def setdw (L : Layout) (p : Nat) (md : Mod) : Src → Src → Stmt
  | e, .const x => setdwx p md e (.const x) (.const 0xFFFFFFFF)
  | e, .var v => .prim (SetDwRel L md e (.var v))

/-- dwepdio.py:112-119 `VProc([p, v], [p.QueueAssignTo(EPD(v.getDestAddr())), v.SetModifier(md)])` -/
def setdwVV (p v n : Nat) (md : Mod) : List QA := [.dest p (epd (v + 344)), .modi p .set, .modi v md, .vnext p v, .vnext v n]
/-- dwepdio.py:121-127 `VProc(v, [v.SetDest(e), v.SetModifier(md)])` -/
def setdwCV (e : W) (v n : Nat) (md : Mod) : List QA := [.dest v e, .modi v md, .vnext v n]

theorem setdwVV_code {L : Layout} (hw : L.Wf) {t p v n : Nat} {md : Mod} (hp : p ∈ L.P.vars) (hv : v ∈ L.P.vars) (hpv : p ≠ v) (hl : v < 2 ^ 32) (hn : n < 2 ^ 32) (he : EpdOK (v + 344))
    (hb : (⟨t, ⟨[], (setdwVV p v n md).map QA.act⟩, some p, false⟩ : SBlk) ∈ L.P.blks) {r b k : Nat} : Code L r b k (.prim (SetDwRel L md (.var p) (.var v))) t n := by
  refine .prim ?_
  rintro s s' ⟨h1, h2, rfl⟩
  have hvp : v ≠ p := Ne.symm hpv
  have g1 := Layout.Steps.trig hw (cs := []) (as := setdwVV p v n md) (nx := some p) hb trivial (by simp [PlacedQ, setdwVV]) (q := ⟨[], KB.none, s⟩) (by simp)
    (fun _ => ⟨hp, hp, hv, ⟨hp, hl⟩, ⟨hv, hn⟩, trivial⟩) (n := p) rfl
  simp only [holdsAll_nil, if_true] at g1
  have g2 := g1.trans (Layout.Steps.varDest hw hp hv (n := v) (by simp [setdwVV, runQA, QA.run, KB.up, hpv]) hl (by simp [setdwVV, runQA, QA.run, KB.up, hpv]) he
    (by simp [setdwVV, runQA, QA.run, KB.up, hpv]))
  have g3 := g2.trans (Layout.Steps.var hw hv (n := n) (md := md) (d := .mem (epdAddr (s (p + 348)))) (w := s (p + 348)) (by simp [setdwVV, runQA, QA.run, KB.up, hpv, hvp]) hn
    (by simp [setdwVV, runQA, QA.run, KB.up, hpv, hvp]) (dstOf_plain h1) h2 (by simp [setdwVV, runQA, QA.run, KB.up, hpv, hvp]))
  exact Layout.Steps.runs hw g3 (by simp [setdwVV, runQA, QA.run])

theorem setdwCV_code {L : Layout} (hw : L.Wf) {t v n : Nat} {e : W} {md : Mod} (hv : v ∈ L.P.vars) (hn : n < 2 ^ 32)
    (hb : (⟨t, ⟨[], (setdwCV e v n md).map QA.act⟩, some v, false⟩ : SBlk) ∈ L.P.blks) {r b k : Nat} : Code L r b k (.prim (SetDwRel L md (.const e) (.var v))) t n := by
  refine .prim ?_
  rintro s s' ⟨h1, h2, rfl⟩
  have g1 := Layout.Steps.trig hw (cs := []) (as := setdwCV e v n md) (nx := some v) hb trivial (by simp [PlacedQ, setdwCV]) (q := ⟨[], KB.none, s⟩) (by simp)
    (fun _ => ⟨hv, hv, ⟨hv, hn⟩, trivial⟩) (n := v) rfl
  simp only [holdsAll_nil, if_true] at g1
  have g3 := g1.trans (Layout.Steps.var hw hv (n := n) (md := md) (d := .mem (epdAddr e)) (w := e) (by simp [setdwCV, runQA, QA.run, KB.up]) hn
    (by simp [setdwCV, runQA, QA.run, KB.up]) (dstOf_plain h1) h2 (by simp [setdwCV, runQA, QA.run, KB.up]))
  exact Layout.Steps.runs hw g3 (by simp [setdwCV, runQA, QA.run])

/-- **C34 for dwords**: `f_dwwrite_epd(e, x)`, `f_dwadd_epd(e, x)`, `f_dwsubtract_epd(e, x)` change exactly the dword at `e`. -/
theorem C34_setdw {L : Layout} {p : Nat} {md : Mod} {e x : Src} (he : SrcOk L p 16 e)
    {s : Mem} (hpl : PlainEpd (e.valM s)) (hc : L.cell (epdAddr (e.valM s))) (hn : epdAddr (e.valM s) ∉ [p, p + 16, p + 20]) :
    Does L (setdw L p md e x) s fun s' => s' (epdAddr (e.valM s)) = arith md (s (epdAddr (e.valM s))) (x.valM s) ∧ Only [epdAddr (e.valM s), p, p + 16, p + 20] s s' := by
  cases x with
  | const c =>
    refine Does.mono (C34_action (k := .const 0xFFFFFFFF) he (by intro v h; cases h) (by intro v h; cases h) hpl hc hn) ?_
    rintro s' ⟨h1, h2⟩
    refine ⟨h1.trans ?_, h2⟩
    exact modify_full _ _ _
  | var v => exact Does.prim ⟨hpl, hc, rfl⟩ ⟨set_eq .., (Only.refl _ s).set (by simp) _⟩

/-- dwepdio.py:102-110, when the address and the value are the same variable: `SetDest(v)` is the dword with the value of `v`. -/
def SetSameRel (v : Nat) (md : Mod) (s s' : Mem) : Prop := s' = s.set (v + 348) (arith md (s (v + 348)) (s (v + 348)))

theorem setdwSame_code {L : Layout} (hw : L.Wf) {t t1 v n : Nat} {md : Mod} (hv : v ∈ L.P.vars) (hn : n < 2 ^ 32) (h1 : t1 < 2 ^ 32) (he : EpdOK (v + 348)) (hc : L.cell (v + 348))
    (hb : (⟨t, ⟨[], [QA.dest v (epd (v + 348)), QA.modi v .set, QA.vnext v t1].map QA.act⟩, some v, false⟩ : SBlk) ∈ L.P.blks)
    (hb1 : (⟨t1, ⟨[], [QA.modi v md, QA.vnext v n].map QA.act⟩, some v, false⟩ : SBlk) ∈ L.P.blks) {r b k : Nat} : Code L r b k (.prim (SetSameRel v md)) t n := by
  refine .prim ?_
  rintro s s' rfl
  have g1 := Layout.Steps.trig hw (cs := []) (as := [QA.dest v (epd (v + 348)), QA.modi v .set, QA.vnext v t1]) (nx := some v) hb trivial (by simp [PlacedQ]) (q := ⟨[], KB.none, s⟩) (by simp)
    (fun _ => ⟨hv, hv, ⟨hv, h1⟩, trivial⟩) (n := v) rfl
  simp only [holdsAll_nil, if_true] at g1
  have g2 := g1.trans (Layout.Steps.var hw hv (n := t1) (md := .set) (d := .mem (v + 348)) (w := epd (v + 348)) (by simp [runQA, QA.run, KB.up]) h1
    (by simp [runQA, QA.run, KB.up]) (dstOf_epd he) hc (by simp [runQA, QA.run, KB.up]))
  simp only [Dst.addr, runQA, QA.run, arith] at g2
  have e0 : s.set (v + 348) (s (v + 348)) = s := by funext x; rw [get_set]; split <;> simp_all
  rw [e0] at g2
  have g3 := g2.trans (Layout.Steps.trig hw (cs := []) (as := [QA.modi v md, QA.vnext v n]) (nx := some v) hb1 trivial (by simp [PlacedQ]) (by simp)
    (fun _ => ⟨hv, ⟨hv, hn⟩, trivial⟩) (n := v) rfl)
  simp only [holdsAll_nil, if_true] at g3
  have g4 := g3.trans (Layout.Steps.var hw hv (n := n) (md := md) (d := .mem (v + 348)) (w := epd (v + 348)) (by simp [runQA, QA.run, KB.up]) hn
    (by simp [runQA, QA.run, KB.up]) (dstOf_epd he) hc (by simp [runQA, QA.run, KB.up]))
  exact Layout.Steps.runs hw g4 (by simp [runQA, QA.run])

/-- **The property is false for one variable in both places**: `f_dwwrite_epd(v, v)` changes nothing, whatever `v` is. -/
theorem C34_counterexample_same {L : Layout} (hw : L.Wf) {t t1 v n : Nat} (hv : v ∈ L.P.vars) (hn : n < 2 ^ 32) (h1 : t1 < 2 ^ 32) (he : EpdOK (v + 348)) (hc : L.cell (v + 348))
    (hb : (⟨t, ⟨[], [QA.dest v (epd (v + 348)), QA.modi v .set, QA.vnext v t1].map QA.act⟩, some v, false⟩ : SBlk) ∈ L.P.blks)
    (hb1 : (⟨t1, ⟨[], [QA.modi v .set, QA.vnext v n].map QA.act⟩, some v, false⟩ : SBlk) ∈ L.P.blks) (s : Mem) : L.Runs s t s n := by
  have hr : SetSameRel v .set s s := by
    funext x
    simp only [arith, get_set]
    split <;> simp_all
  exact C25_structured hw (.prim hr) (setdwSame_code hw hv hn h1 he hc hb hb1 (r := 0) (b := 0) (k := 0))

end Eud.SC
