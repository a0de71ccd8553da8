import Verif.Machine.Raw
/-
C20: multiplication of two variables (core/calcf/muldiv.py:393-426 `_eud_mul`).
-/

namespace Eud.SC

/-- `2 ** i` as a dword. -/
def pow2 (i : Nat) : W := BitVec.twoPow 32 i

/-- muldiv.py:400-404: `remaining_bits` in round `i`. -/
def remBits : Nat → W
  | 0 => 0xFFFFFFFF - pow2 0
  | i + 1 => remBits i - pow2 (i + 1)

/-- The triggers of `_eud_mul(a, b)`; `p1 .. p4` are the `Forward()`s of each round, `p2 31` is `endmul`,
`t0` the entry and `fin` what comes after.  The action `reset_nptr` is the first action of `endmul`, its
destination and value are holes. -/
structure MulCode (L : Layout) (a b ret t0 fin : Nat) (p1 p2 p3 p4 : Nat → Nat) : Prop where
  init : (⟨t0, ⟨[], [sMem (ret + 348) .set 0, sModi b .add]⟩, some (p1 0), false⟩ : SBlk) ∈ L.P.blks
  b1 : ∀ i < 32, (⟨p1 i, ⟨[sChk (a + 348) .atLeast 1 (pow2 i)], [sNext (p1 i) (p3 i)]⟩, none, false⟩ : SBlk) ∈ L.P.blks
  r1 : ∀ i < 32, (p1 i, p2 i) ∈ L.rest
  b3 : ∀ i < 32, (⟨p3 i, ⟨[], [sDest b (ret + 348), sNext (p1 i) (p2 i), sNext b (p2 i)]⟩, some b, false⟩ : SBlk) ∈ L.P.blks
  b2 : ∀ i < 31, (⟨p2 i, ⟨[sChk (a + 348) .exactly 0 (remBits i)],
      [sNext (p2 i) (p2 31), sMem (p2 31 + 344) .set (epd (p2 i + 4)),
        sMem (p2 31 + 348) .set (BitVec.ofNat 32 (p4 i))]⟩, none, false⟩ : SBlk) ∈ L.P.blks
  r2 : ∀ i < 31, (p2 i, p4 i) ∈ L.rest
  b4 : ∀ i < 31, (⟨p4 i, ⟨[], [sDest b (b + 348), sNext b (p1 (i + 1))]⟩, some b, false⟩ : SBlk) ∈ L.P.blks
  be : (⟨p2 31, ⟨[], [⟨none, .set, none, some 0xFFFFFFFF⟩]⟩, some fin, false⟩ : SBlk) ∈ L.P.blks
  lt1 : ∀ i < 32, p1 i < 2 ^ 32
  lt3 : ∀ i < 32, p3 i < 2 ^ 32
  lt2 : ∀ i < 32, p2 i < 2 ^ 32
  epd : ∀ i < 31, EpdOK (p2 i + 4)
  epd1 : EpdOK (p1 31 + 4)
  va : a ∈ L.P.vars
  vb : b ∈ L.P.vars
  vr : ret ∈ L.P.vars
  ab : a ≠ b
  ar : a ≠ ret
  br : b ≠ ret
  /-- `reset_nptr` is not a variable and not part of the current player cell. -/
  he : L.cell (p2 31 + 344) ∧ L.cell (p2 31 + 348)
  hd : ∀ o ∈ [344, 348], p2 31 + o ≠ a + 348 ∧ p2 31 + o ≠ b + 348 ∧ p2 31 + o ≠ ret + 348

/-- The action `reset_nptr` restores some branch trigger.  It does so initially
(`SetNextPtr(p1, p2)` of the last round) and after every call. -/
def MulRest (L : Layout) (e : Nat) (s : Mem) : Prop :=
  ∃ r ∈ L.rest, s (e + 344) = epd (r.1 + 4) ∧ s (e + 348) = BitVec.ofNat 32 r.2 ∧ EpdOK (r.1 + 4)

theorem pow2_bit (a : W) {i : Nat} (hi : i < 32) : compare .atLeast (a &&& pow2 i) 1 = a.getLsbD i := by
  rw [pow2, BitVec.and_twoPow]
  cases a.getLsbD i with
  | false => simp [compare]
  | true =>
    have : ∀ i : Fin 32, compare .atLeast (BitVec.twoPow 32 i) 1 = true := by decide
    simpa using this ⟨i, hi⟩

theorem remBits_bit : ∀ i < 31, ∀ j < 32, (remBits i).getLsbD j = decide (i < j) := by decide +kernel

/-- No set bit above `i`. -/
theorem remBits_zero (a : W) {i : Nat} (hi : i < 31) :
    compare .exactly (a &&& remBits i) 0 = decide (a >>> (i + 1) = 0) := by
  simp only [compare]
  congr 1
  apply propext
  constructor
  · intro h
    apply BitVec.eq_of_getLsbD_eq
    intro j hj
    rw [BitVec.getLsbD_ushiftRight]
    by_cases hj2 : i + 1 + j < 32
    · have := congrArg (fun w => w.getLsbD (i + 1 + j)) h
      simp only [BitVec.getLsbD_and, remBits_bit i hi _ hj2] at this
      simpa [show i < i + 1 + j by omega] using this
    · simp [BitVec.getLsbD_of_ge _ _ (show 32 ≤ i + 1 + j by omega)]
  · intro h
    apply BitVec.eq_of_getLsbD_eq
    intro j hj
    rw [BitVec.getLsbD_and, remBits_bit i hi _ hj]
    by_cases hij : i < j
    · have := congrArg (fun w => w.getLsbD (j - (i + 1))) h
      simp only [BitVec.getLsbD_ushiftRight] at this
      rw [show i + 1 + (j - (i + 1)) = j by omega] at this
      simp [this]
    · simp [hij]

/-- One more bit. -/
theorem shr_succ (a : W) (i : Nat) :
    a >>> i = (if a.getLsbD i then 1 else 0) + (a >>> (i + 1) + a >>> (i + 1)) := by
  apply BitVec.eq_of_toNat_eq
  have e1 : (a >>> (i + 1)).toNat = (a >>> i).toNat / 2 := by
    simp only [BitVec.toNat_ushiftRight, Nat.shiftRight_succ]
  have e2 : a.getLsbD i = decide ((a >>> i).toNat % 2 = 1) := by
    have : a.getLsbD i = (a >>> i).getLsbD 0 := by simp
    rw [this, BitVec.getLsbD, Nat.testBit_zero]
  have hlt := (a >>> i).isLt
  rw [e2]
  rw [BitVec.toNat_add, BitVec.toNat_add, e1]
  by_cases h : (a >>> i).toNat % 2 = 1
  · simp only [h, decide_true, if_true]
    rw [show (1 : W).toNat = 1 from rfl]
    omega
  · simp only [h, decide_false, Bool.false_eq_true, if_false]
    rw [show (0 : W).toNat = 0 from rfl]
    omega

/-- The end of the chain puts the branch trigger that was used last back. -/
theorem mul_end {L : Layout} (hw : L.Wf) {a b ret t0 fin : Nat} {p1 p2 p3 p4 : Nat → Nat}
    (hM : MulCode L a b ret t0 fin p1 p2 p3 p4) {m : Mem} (hin : L.P.In m) {r : Nat × Nat} (hr : r ∈ L.rest)
    (h1 : m (p2 31 + 344) = epd (r.1 + 4)) (h2 : m (p2 31 + 348) = BitVec.ofNat 32 r.2) (h3 : EpdOK (r.1 + 4)) :
    step ⟨m, p2 31⟩ = some ⟨m.set (r.1 + 4) (BitVec.ofNat 32 r.2), fin⟩ := by
  have hd : dstOf (m (p2 31 + 328 + 16)) 0 = some (.mem (r.1 + 4)) := by
    rw [Nat.add_assoc, show 328 + 16 = 344 from rfl, h1]; exact dstOf_epd h3
  have e : ((⟨none, .set, none, some 0xFFFFFFFF⟩ : SAct).res m (p2 31 + 328)).apply m
      = m.set (r.1 + 4) (BitVec.ofNat 32 r.2) := by
    simp only [SAct.res, Option.getD_none, Option.getD_some, hd, Act.apply, Dst.addr, modify_full]
    rw [Nat.add_assoc, show 328 + 20 = 348 from rfl, h2]
    rfl
  have ha : L.P.Acts [⟨none, .set, none, some 0xFFFFFFFF⟩] (p2 31 + 328) m := by
    refine ⟨fun _ => by rw [hd]; rfl, ?_, trivial⟩
    simp only [SAct.res, Option.getD_none, hd, Option.getD_some, Dst.addr]
    exact (hw.rdat r hr).okw _ _
  have := (hin.step_next hM.be rfl rfl trivial (fun _ => ha)).1
  simp only [SBlk.exec, condsS, if_true, runS, e] at this
  exact this

/-- A round adds `b` to the result if the bit is set. -/
theorem mul_add {L : Layout} (hw : L.Wf) {a b ret t0 fin : Nat} {p1 p2 p3 p4 : Nat → Nat}
    (hM : MulCode L a b ret t0 fin p1 p2 p3 p4) {i : Nat} (hi : i < 32) {m : Mem} (h : L.Ok m)
    (hmd : varMod m b = some .add) :
    ∃ m', Reaches ⟨m, p1 i⟩ ⟨m', p2 i⟩ ∧ L.Ok m' ∧ varMod m' b = some .add ∧
      L.view m' = (L.view m).set (ret + 348) (L.view m (ret + 348) +
        (if (L.view m (a + 348)).getLsbD i then L.view m (b + 348) else 0)) := by
  have hca := cell_val hw hM.va
  have hcr := cell_val hw hM.vr
  have hb := h.br hw (hM.b1 i hi) (hM.r1 i hi) (hM.lt3 i hi) ⟨sChk_ready _ _ _ _ _ _, hca.2, trivial⟩
    (fun _ => trivial) (fun _ => set_eq _ _ _)
  have hcond : condsS (L.view m) [sChk (a + 348) .atLeast 1 (pow2 i)] (p1 i + 8) = (L.view m (a + 348)).getLsbD i := by
    simp only [condsS, sChk_res, Bool.and_true]
    exact pow2_bit _ hi
  rw [hcond] at hb
  cases hbit : (L.view m (a + 348)).getLsbD i with
  | false =>
    rw [hbit] at hb
    refine ⟨m, Reaches.step hb, h, hmd, ?_⟩
    simp [set_self]
  | true =>
    rw [hbit] at hb
    simp only [if_true, runS] at hb ⊢
    have hp : L.priv (p1 i + 4) := Layout.Wf.privR (hM.r1 i hi)
    have hne : p1 i + 4 ≠ b + 344 := (hw.rsep _ (hM.r1 i hi) b hM.vb).2.2
    have hs := hb.2.step_next (hM.b3 i hi) rfl rfl trivial (fun _ =>
      Prog.acts_dest hw.P hM.vb (Prog.acts_next (hw.rdat _ (hM.r1 i hi)) (Prog.acts_nextv hw.P hM.vb trivial)))
    simp only [SBlk.exec, condsS, if_true, runS, sDest_apply, sNext_apply] at hs
    rw [set_comm hne, set_set, (h.set344 hw hM.vb (epd (ret + 348))).set_rest (hM.r1 i hi)] at hs
    obtain ⟨m', s1, k1, k2, k3⟩ := h.vstep hw hM.vb hmd hcr (hw.P.epd ret hM.vr) (hM.lt2 i hi)
    refine ⟨m', Reaches.head hb.1 (Reaches.head hs.1 (Reaches.step s1)), k1, ?_, k3⟩
    unfold varMod at hmd ⊢
    rw [k2]; exact hmd

/-- `b += b` -/
theorem mul_dbl {L : Layout} (hw : L.Wf) {a b ret t0 fin : Nat} {p1 p2 p3 p4 : Nat → Nat}
    (hM : MulCode L a b ret t0 fin p1 p2 p3 p4) {i : Nat} (hi : i < 31) {m : Mem} (h : L.Ok m)
    (hmd : varMod m b = some .add) :
    ∃ m', Reaches ⟨m, p4 i⟩ ⟨m', p1 (i + 1)⟩ ∧ L.Ok m' ∧ varMod m' b = some .add ∧
      L.view m' = (L.view m).set (b + 348) (L.view m (b + 348) + L.view m (b + 348)) := by
  have hs := h.prog.step_next (hM.b4 i hi) rfl rfl trivial (fun _ =>
    Prog.acts_dest hw.P hM.vb (Prog.acts_nextv hw.P hM.vb trivial))
  simp only [SBlk.exec, condsS, if_true, runS, sDest_apply, sNext_apply] at hs
  obtain ⟨m', s1, k1, k2, k3⟩ := h.vstep hw hM.vb hmd (cell_val hw hM.vb) (hw.P.epd b hM.vb) (hM.lt1 (i + 1) (by omega))
  refine ⟨m', Reaches.head hs.1 (Reaches.step s1), k1, ?_, k3⟩
  unfold varMod at hmd ⊢
  rw [k2]; exact hmd

/-- The specification of the routine on visible dwords. -/
structure MulSpec (L : Layout) (b ret e : Nat) (s s' : Mem) (r : W) : Prop where
  hole : MulRest L e s'
  res : s' (ret + 348) = r
  frame : ∀ x, x ∉ [ret + 348, b + 348, e + 344, e + 348] → s' x = s x

theorem MulRest.congr {L : Layout} {e : Nat} {s s' : Mem} (h : MulRest L e s) (h1 : s' (e + 344) = s (e + 344))
    (h2 : s' (e + 348) = s (e + 348)) : MulRest L e s' := by
  obtain ⟨r, hr, e1, e2, e3⟩ := h
  exact ⟨r, hr, h1.trans e1, h2.trans e2, e3⟩

/-- The view behind the rounds from `i` on; `k` rounds follow the first. -/
def mulV (a b ret : Nat) (p2 p4 : Nat → Nat) : Nat → Nat → Mem → Mem
  | 0, i, s => s.set (ret + 348) (s (ret + 348) + (if (s (a + 348)).getLsbD i then s (b + 348) else 0))
  | k + 1, i, s =>
    let s1 := s.set (ret + 348) (s (ret + 348) + (if (s (a + 348)).getLsbD i then s (b + 348) else 0))
    if s (a + 348) >>> (i + 1) = 0 then (s1.set (p2 31 + 344) (epd (p2 i + 4))).set (p2 31 + 348) (BitVec.ofNat 32 (p4 i))
    else mulV a b ret p2 p4 k (i + 1) (s1.set (b + 348) (s1 (b + 348) + s1 (b + 348)))

theorem mul_rounds {L : Layout} (hw : L.Wf) {a b ret t0 fin : Nat} {p1 p2 p3 p4 : Nat → Nat}
    (hM : MulCode L a b ret t0 fin p1 p2 p3 p4) : ∀ (k i : Nat), i + k = 31 → ∀ (m : Mem), L.Ok m →
    varMod m b = some .add → MulRest L (p2 31) (L.view m) →
    ∃ m', Reaches ⟨m, p1 i⟩ ⟨m', fin⟩ ∧ L.Ok m' ∧ L.view m' = mulV a b ret p2 p4 k i (L.view m) ∧ MulSpec L b ret (p2 31) (L.view m) (L.view m')
      (L.view m (ret + 348) + L.view m (b + 348) * (L.view m (a + 348) >>> i)) := by
  have v1 : b + 348 ≠ ret + 348 := by have := hM.br; omega
  have v2 : a + 348 ≠ ret + 348 := by have := hM.ar; omega
  have v3 : a + 348 ≠ b + 348 := by have := hM.ab; omega
  obtain ⟨d1, d2, d3⟩ := hM.hd 344 (by simp)
  obtain ⟨g1, g2, g3⟩ := hM.hd 348 (by simp)
  intro k
  induction k with
  | zero =>
    intro i hi m h hmd hR
    have hi' : i = 31 := by omega
    subst hi'
    obtain ⟨m1, r1, o1, md1, vw1⟩ := mul_add hw hM (i := 31) (by omega) h hmd
    have hR1 : MulRest L (p2 31) (L.view m1) := hR.congr (by rw [vw1, set_ne d3]) (by rw [vw1, set_ne g3])
    obtain ⟨r, hr, e1, e2, e3⟩ := hR1
    rw [Layout.view_at hM.he.1.2] at e1
    rw [Layout.view_at hM.he.2.2] at e2
    have hs := mul_end hw hM o1.prog hr e1 e2 e3
    rw [o1.set_rest hr] at hs
    refine ⟨m1, r1.trans (Reaches.step hs), o1, vw1, ⟨?_, ?_, ?_⟩⟩
    · exact hR.congr (by rw [vw1, set_ne d3]) (by rw [vw1, set_ne g3])
    · rw [vw1, set_eq, shr_succ _ 31]
      have : ∀ x : W, x >>> (31 + 1) = 0 := by
        intro x; apply BitVec.eq_of_getLsbD_eq; intro j hj; simp
      rw [this]
      split <;> grind
    · intro x hx
      rw [vw1, set_ne (by simp at hx; exact hx.1)]
  | succ k ih =>
    intro i hi m h hmd hR
    obtain ⟨m1, r1, o1, md1, vw1⟩ := mul_add hw hM (i := i) (by omega) h hmd
    have hR1 : MulRest L (p2 31) (L.view m1) := hR.congr (by rw [vw1, set_ne d3]) (by rw [vw1, set_ne g3])
    have hi2 : i < 31 := by omega
    have hb := o1.br hw (hM.b2 i hi2) (hM.r2 i hi2) (hM.lt2 31 (by omega))
      ⟨sChk_ready _ _ _ _ _ _, (cell_val hw hM.va).2, trivial⟩
      (fun _ => Prog.acts_mem hM.he.1.1 (Prog.acts_mem hM.he.2.1 trivial))
      (fun _ => by
        have n1 : p2 i + 4 ≠ p2 31 + 344 := fun e => hM.he.1.2 (e ▸ Layout.Wf.privR (hM.r2 i hi2))
        have n2 : p2 i + 4 ≠ p2 31 + 348 := fun e => hM.he.2.2 (e ▸ Layout.Wf.privR (hM.r2 i hi2))
        simp only [runS, sMem_apply, arith]
        rw [set_ne n2, set_ne n1, set_eq])
    have hcond : condsS (L.view m1) [sChk (a + 348) .exactly 0 (remBits i)] (p2 i + 8)
        = decide (L.view m (a + 348) >>> (i + 1) = 0) := by
      simp only [condsS, sChk_res, Bool.and_true]
      rw [vw1, set_ne v2]
      exact remBits_zero _ hi2
    rw [hcond] at hb
    by_cases hz : L.view m (a + 348) >>> (i + 1) = 0
    · rw [if_pos (by simpa using hz)] at hb
      simp only [runS, sMem_apply, arith] at hb
      have n1 : p2 i + 4 ≠ p2 31 + 344 := fun e => hM.he.1.2 (e ▸ Layout.Wf.privR (hM.r2 i hi2))
      have n2 : p2 i + 4 ≠ p2 31 + 348 := fun e => hM.he.2.2 (e ▸ Layout.Wf.privR (hM.r2 i hi2))
      have hs := mul_end hw hM hb.2 (hM.r2 i hi2) (by rw [set_ne (by omega), set_eq]) (set_eq _ _ _) (hM.epd i hi2)
      rw [set_comm n1, set_comm n2, set_set,
        ((o1.set hM.he.1 _).set hM.he.2 _).set_rest (hM.r2 i hi2)] at hs
      have hb1 := hb.1
      rw [set_comm n1, set_comm n2] at hb1
      refine ⟨_, r1.trans (Reaches.head hb1 (Reaches.step hs)), (o1.set hM.he.1 _).set hM.he.2 _, ?_, ⟨?_, ?_, ?_⟩⟩
      · rw [Layout.view_set hM.he.2.2, Layout.view_set hM.he.1.2, vw1, mulV, if_pos hz]
      · refine ⟨_, hM.r2 i hi2, ?_, ?_, hM.epd i hi2⟩
        · rw [Layout.view_at hM.he.1.2, set_ne (by omega), set_eq]
        · rw [Layout.view_at hM.he.2.2, set_eq]
      · rw [Layout.view_set hM.he.2.2, Layout.view_set hM.he.1.2, set_ne g3.symm, set_ne d3.symm, vw1, set_eq,
          shr_succ _ i, hz]
        split <;> grind
      · intro x hx
        simp only [List.mem_cons, List.not_mem_nil, or_false, not_or] at hx
        rw [Layout.view_set hM.he.2.2, Layout.view_set hM.he.1.2, set_ne hx.2.2.2, set_ne hx.2.2.1, vw1,
          set_ne hx.1]
    · rw [if_neg (by simpa using hz)] at hb
      obtain ⟨m2, r2, o2, md2, vw2⟩ := mul_dbl hw hM hi2 o1 md1
      obtain ⟨m3, r3, o3, w3, s3⟩ := ih (i + 1) (by omega) m2 o2 md2
        (hR1.congr (by rw [vw2, set_ne d2]) (by rw [vw2, set_ne g2]))
      refine ⟨m3, r1.trans (Reaches.head hb (r2.trans r3)), o3, ?_, ⟨s3.hole, ?_, ?_⟩⟩
      · rw [w3, mulV, if_neg hz, vw2, vw1]
      · rw [s3.res, vw2, set_ne v1.symm, set_eq, set_ne v3, vw1, set_eq, set_ne v1, set_ne v2, shr_succ _ i]
        split <;> grind
      · intro x hx
        have hx' := hx
        simp only [List.mem_cons, List.not_mem_nil, or_false, not_or] at hx'
        rw [s3.frame x hx, vw2, set_ne hx'.2.1, vw1, set_ne hx'.1]

/-- `_eud_mul` with the view it leaves. -/
theorem eud_mul_view {L : Layout} (hw : L.Wf) {a b ret t0 fin : Nat} {p1 p2 p3 p4 : Nat → Nat}
    (hM : MulCode L a b ret t0 fin p1 p2 p3 p4) {m : Mem} (h : L.Ok m) (hR : MulRest L (p2 31) (L.view m)) :
    ∃ m', Reaches ⟨m, t0⟩ ⟨m', fin⟩ ∧ L.Ok m' ∧ L.view m' = mulV a b ret p2 p4 31 0 ((L.view m).set (ret + 348) 0) ∧
      MulSpec L b ret (p2 31) (L.view m) (L.view m') (L.view m (a + 348) * L.view m (b + 348)) := by
  have v1 : b + 348 ≠ ret + 348 := by have := hM.br; omega
  have v2 : a + 348 ≠ ret + 348 := by have := hM.ar; omega
  obtain ⟨d1, d2, d3⟩ := hM.hd 344 (by simp)
  obtain ⟨g1, g2, g3⟩ := hM.hd 348 (by simp)
  have hcr := cell_val hw hM.vr
  have hs := h.prog.step_next hM.init rfl rfl trivial (fun _ =>
    Prog.acts_mem hcr.1 (Prog.acts_modi hw.P hM.vb trivial))
  simp only [SBlk.exec, condsS, if_true, runS, sMem_apply, arith, sModi_apply] at hs
  have o1 := (h.set hcr 0).setMod hw hM.vb .add
  have vw : L.view ((m.set (ret + 348) 0).set (b + 352) (modWord ((m.set (ret + 348) 0) (b + 352)) .add))
      = (L.view m).set (ret + 348) 0 := by
    rw [Layout.view_priv (Layout.Wf.priv352 hM.vb), Layout.view_set hcr.2]
  obtain ⟨m', r, o, w, s⟩ := mul_rounds hw hM 31 0 rfl _ o1 (varMod_modWord (set_eq _ _ _))
    (hR.congr (by rw [vw, set_ne d3]) (by rw [vw, set_ne g3]))
  refine ⟨m', Reaches.head hs.1 r, o, by rw [w, vw], ⟨s.hole, ?_, ?_⟩⟩
  · rw [s.res, vw, set_eq, set_ne v1, set_ne v2, BitVec.ushiftRight_zero, BitVec.mul_comm]
    simp
  · intro x hx
    have hx' := hx
    simp only [List.mem_cons, List.not_mem_nil, or_false, not_or] at hx'
    rw [s.frame x hx, vw, set_ne hx'.1]

/-- **C20 (multiplication).** For all values of `a` and `b`, the routine leaves `a * b` (mod 2^32) in `ret`,
apart from `b` and the routine's own two cells changes nothing else, and is ready for the next call.
`R` is what a program using the routine as a statement may rely on. -/
theorem C20_eud_mul {L : Layout} (hw : L.Wf) {a b ret t0 fin : Nat} {p1 p2 p3 p4 : Nat → Nat}
    (hM : MulCode L a b ret t0 fin p1 p2 p3 p4) {m : Mem} (h : L.Ok m) (hR : MulRest L (p2 31) (L.view m)) :
    ∃ m', Reaches ⟨m, t0⟩ ⟨m', fin⟩ ∧ L.Ok m' ∧
      MulSpec L b ret (p2 31) (L.view m) (L.view m') (L.view m (a + 348) * L.view m (b + 348)) := by
  obtain ⟨m', r, o, -, s⟩ := eud_mul_view hw hM h hR
  exact ⟨m', r, o, s⟩

end Eud.SC
