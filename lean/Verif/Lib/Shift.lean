import Verif.Lib.Div
import Verif.Lib.Ops
import Verif.Machine.Call
/-
C22: shifts by a variable amount (core/calcf/bitwise.py:83-161).
-/

namespace Eud.SC

/-! ## Left -/

/-- bitwise.py:122-141 `_f_bitlshift`: `a` is its own destination; `ls`, `lc` are `loopstart` and `loopcnt`, `fin` is `loopend`. -/
structure LshiftCode (L : Layout) (a b t0 ls lc fin : Nat) : Prop where
  b0 : (⟨t0, ⟨[], [sNext a lc, sDest a (a + 348), sModi a .add]⟩, some ls, false⟩ : SBlk) ∈ L.P.blks
  bs : (⟨ls, ⟨[sChk (a + 348) .atLeast 1 0xFFFFFFFF, sChk (b + 348) .atLeast 1 0xFFFFFFFF], [sNext ls a]⟩, none, false⟩ : SBlk) ∈ L.P.blks
  bc : (⟨lc, ⟨[], [sMem (b + 348) .sub 1, sNext ls fin]⟩, some ls, false⟩ : SBlk) ∈ L.P.blks
  rest : (ls, fin) ∈ L.rest
  va : a ∈ L.P.vars
  vb : b ∈ L.P.vars
  lc32 : lc < 2 ^ 32
  la : a < 2 ^ 32

theorem shl_double (x : W) (n : Nat) (h : 0 < n) : (x + x) <<< (n - 1) = x <<< n := by
  obtain ⟨n, rfl⟩ : ∃ k, n = k + 1 := ⟨n - 1, by omega⟩
  simp only [Nat.add_sub_cancel]
  apply BitVec.eq_of_toNat_eq
  simp only [BitVec.toNat_shiftLeft, BitVec.toNat_add, Nat.shiftLeft_eq, Nat.mod_mul_mod]
  congr 1
  rw [Nat.pow_succ]
  grind

/-- How the values change: (`a`, `b`). -/
def shlRun : W → Nat → W × Nat
  | a, 0 => (a, 0)
  | a, n + 1 => if a = 0 then (a, n + 1) else shlRun (a + a) n

theorem shlRun_eq : ∀ (n : Nat) (a : W), (shlRun a n).1 = a <<< n
  | 0, a => by simp [shlRun]
  | n + 1, a => by
    unfold shlRun
    split
    · rename_i h; simp [h]
    · rw [shlRun_eq n, ← shl_double _ (n + 1) (by omega), Nat.add_sub_cancel]

theorem chk2 (v : Mem) (a b x : Nat) : condsS v [sChk a .atLeast 1 0xFFFFFFFF, sChk b .atLeast 1 0xFFFFFFFF] x = (decide (1 ≤ v a) && decide (1 ≤ v b)) := by
  simp only [condsS, sChk_res, Bool.and_true, and_full, compare]

theorem lshift_loop {L : Layout} (hw : L.Wf) {a b t0 ls lc fin : Nat} (hc : LshiftCode L a b t0 ls lc fin) (hab : a ≠ b) :
    ∀ (n : Nat) (m : Mem), L.Ok m → (L.view m (b + 348)).toNat = n → varMod m a = some .add → m (a + 344) = epd (a + 348) →
      m (a + 4) = BitVec.ofNat 32 lc →
      ∃ m', Reaches ⟨m, ls⟩ ⟨m', fin⟩ ∧ L.Ok m' ∧
        L.view m' = ((L.view m).set (a + 348) (shlRun (L.view m (a + 348)) n).1).set (b + 348) (BitVec.ofNat 32 (shlRun (L.view m (a + 348)) n).2) := by
  intro n
  induction n with
  | zero =>
    intro m hm hn h1 h2 h3
    have hca := cell_val hw hc.va
    have hcb := cell_val hw hc.vb
    have hb := hm.br hw hc.bs hc.rest hc.la ⟨sChk_ready _ _ _ _ _ _, hca.2, sChk_ready _ _ _ _ _ _, hcb.2, trivial⟩ (fun _ => trivial) (fun _ => set_eq _ _ _)
    have hz : L.view m (b + 348) = 0 := BitVec.eq_of_toNat_eq hn
    rw [chk2, hz, if_neg (by simp [BitVec.le_def])] at hb
    refine ⟨m, Reaches.step hb, hm, ?_⟩
    simp only [shlRun]
    rw [set_self, show (BitVec.ofNat 32 0) = L.view m (b + 348) from hz.symm, set_self]
  | succ n ih =>
    intro m hm hn h1 h2 h3
    have hca := cell_val hw hc.va
    have hcb := cell_val hw hc.vb
    have va := hc.va
    have hb := hm.br hw hc.bs hc.rest hc.la ⟨sChk_ready _ _ _ _ _ _, hca.2, sChk_ready _ _ _ _ _ _, hcb.2, trivial⟩ (fun _ => trivial) (fun _ => set_eq _ _ _)
    by_cases hz : L.view m (a + 348) = 0
    · rw [chk2, hz, if_neg (by simp [BitVec.le_def])] at hb
      refine ⟨m, Reaches.step hb, hm, ?_⟩
      rw [shlRun, if_pos hz, ← hn, BitVec.ofNat_toNat, BitVec.setWidth_eq, set_self, set_self]
    · have hz' : 0 < (L.view m (a + 348)).toNat := Nat.pos_of_ne_zero fun e => hz (BitVec.eq_of_toNat_eq e)
      rw [if_pos (by
        simp only [chk2, Bool.and_eq_true, decide_eq_true_eq, BitVec.le_def, hn]
        exact ⟨hz', by show 1 ≤ n + 1; omega⟩)] at hb
      simp only [runS] at hb
      obtain ⟨r1, r2, r3⟩ := hw.rsep _ hc.rest a va
      simp only at r1 r2 r3
      have r4 : ls + 4 ≠ a + 348 := fun e => hca.2 (e ▸ Layout.Wf.privR hc.rest)
      have r5 : ls + 4 ≠ a + 352 := (hw.rdat _ hc.rest).2 a va
      have r6 : ls + 4 ≠ b + 348 := fun e => hcb.2 (e ▸ Layout.Wf.privR hc.rest)
      obtain ⟨o4, o20, o328, o344, o348, o352, o356, o384, o2376⟩ := offs_mem
      have e1 : ((m.set (ls + 4) (BitVec.ofNat 32 a)).set (a + 348) (m (a + 348) + m (a + 348))) = (m.set (a + 348) (m (a + 348) + m (a + 348))).set (ls + 4) (BitVec.ofNat 32 a) :=
        set_comm r4
      have hv := hb.2.step_var va (md := .add) (a := a + 348) (n := lc) (by unfold varMod at h1 ⊢; rw [set_ne r5.symm]; exact h1)
        (by rw [set_ne r3.symm, h2]) (hw.P.epd a va) (by rw [set_ne r2.symm, h3]) hc.lc32 (hca.okw _ _) (by omega)
      rw [set_ne r4.symm, set_ne r1.symm, hm.mask a va, modify_full, arith, e1] at hv
      have hk := hv.2.step_next hc.bc rfl rfl trivial (fun _ => Prog.acts_mem hcb.1 (Prog.acts_next (hw.rdat _ hc.rest) trivial))
      simp only [SBlk.exec, condsS, if_true, runS, sMem_apply, sNext_apply] at hk
      rw [set_ne r6.symm, set_comm (a := ls + 4) (b := b + 348) r6, set_set,
        ((hm.set hca (m (a + 348) + m (a + 348))).set hcb _).set_rest hc.rest] at hk
      have hne : b + 348 ≠ a + 348 := by omega
      rw [set_ne hne] at hk
      have hsub : arith .sub (m (b + 348)) 1 = m (b + 348) - 1 := by
        rw [Layout.view_at hcb.2] at hn
        simp only [arith]
        rw [if_neg]
        rw [BitVec.lt_def, hn]; show ¬ (n + 1 < 1); omega
      rw [hsub] at hk
      have hm3 := (hm.set hca (m (a + 348) + m (a + 348))).set hcb (m (b + 348) - 1)
      obtain ⟨m', g1, g2, g3⟩ := ih ((m.set (a + 348) (m (a + 348) + m (a + 348))).set (b + 348) (m (b + 348) - 1)) hm3
        (by
          rw [Layout.view_at hcb.2] at hn ⊢
          rw [set_eq, BitVec.toNat_sub, hn, show (1 : W).toNat = 1 from rfl]
          have := (m (b + 348)).isLt
          omega)
        (by unfold varMod at h1 ⊢; rw [set_ne (hw.P.sep a va b hc.vb 352 o352 348 o348 (by omega)), set_ne (by omega)]; exact h1)
        (by rw [set_ne (hw.P.sep a va b hc.vb 344 o344 348 o348 (by omega)), set_ne (by omega), h2])
        (by rw [set_ne (hw.P.sep a va b hc.vb 4 o4 348 o348 (by omega)), set_ne (by omega), h3])
      refine ⟨m', Reaches.head hb.1 (Reaches.head hv.1 (Reaches.head hk.1 g1)), g2, ?_⟩
      rw [g3, Layout.view_set hcb.2, Layout.view_set hca.2, Layout.view_at hca.2, set_ne hne.symm, set_eq, set_comm (a := b + 348) hne, set_set, set_set,
        shlRun, if_neg (Layout.view_at (m := m) hca.2 ▸ hz)]

/-- **C22 (left shift).** For every amount, `a` ends up shifted by it (so 0 for 32 and more); `b` is used up. -/
theorem C22_lshift {L : Layout} (hw : L.Wf) {a b t0 ls lc fin : Nat} (hc : LshiftCode L a b t0 ls lc fin) (hab : a ≠ b) (s : Mem) :
    ∃ s', L.Runs s t0 s' fin ∧ s' (a + 348) = s (a + 348) <<< (s (b + 348)).toNat ∧ Only [a + 348, b + 348] s s' := by
  refine ⟨(s.set (a + 348) (shlRun (s (a + 348)) (s (b + 348)).toNat).1).set (b + 348) (BitVec.ofNat 32 (shlRun (s (a + 348)) (s (b + 348)).toNat).2),
    ?_, ?_, Only.set (Only.set (Only.refl _ _) (by simp) _) (by simp) _⟩
  · rintro m hm rfl
    have va := hc.va
    have hs := hm.prog.step_next hc.b0 rfl rfl trivial (fun _ => Prog.acts_nextv hw.P va (Prog.acts_dest hw.P va (Prog.acts_modi hw.P va trivial)))
    simp only [SBlk.exec, condsS, if_true, runS, sNext_apply, sDest_apply, sModi_apply] at hs
    have h1 := ((hm.set4 hw va (BitVec.ofNat 32 lc)).set344 hw va (epd (a + 348))).setMod hw va .add
    have hvw : L.view (((m.set (a + 4) (BitVec.ofNat 32 lc)).set (a + 344) (epd (a + 348))).set (a + 352)
        (modWord (((m.set (a + 4) (BitVec.ofNat 32 lc)).set (a + 344) (epd (a + 348))) (a + 352)) .add)) = L.view m := by
      rw [Layout.view_priv (Layout.Wf.priv352 va), Layout.view_priv (Layout.Wf.priv344 va), Layout.view_priv (Layout.Wf.priv4 va)]
    obtain ⟨m', g1, g2, g3⟩ := lshift_loop hw hc hab _ _ h1 rfl (varMod_modWord (set_eq _ _ _))
      (by rw [set_ne (by omega), set_eq]) (by rw [set_ne (by omega), set_ne (by omega), set_eq])
    rw [hvw] at g3
    exact ⟨m', Reaches.head hs.1 g1, g2, g3⟩
  · rw [set_ne (by omega), set_eq, shlRun_eq]

/-! ## Right -/

/-- bitwise.py:83-91 `_exp2_vv` -/
def exp2 (n ret : Nat) : Stmt :=
  .seq (.asg [⟨ret, .set, .const 0⟩]) (.seqs ((List.range 32).map fun i => .trig [cMem n .exactly (BitVec.ofNat 32 i)] [aMem ret .set (pow2 i)]))

/-- `2**n`, 0 from 32 on -/
theorem C22_exp2 {L : Layout} {n ret : Nat} (hn : L.cell n) (hr : L.cell ret) (hne : n ≠ ret) (s : Mem) :
    Does L (exp2 n ret) s fun s' => s' ret = BitVec.ofNat 32 (2 ^ (s n).toNat) ∧ Only [ret] s s' := by
  refine Does.seq (Does.asg (by simpa using hr) (by simp) ?_)
  refine (Does.chain (L := L) (fun i => Stmt.trig [cMem n .exactly (BitVec.ofNat 32 i)] [aMem ret .set (pow2 i)])
    (fun l s' => (s' ret = if (s n).toNat < 32 ∧ (s n).toNat ∉ l then BitVec.ofNat 32 (2 ^ (s n).toNat) else 0) ∧ Only [ret] s s' ∧ l.Nodup) _ _ ?_ ?_).mono ?_
  · refine ⟨?_, ?_, List.nodup_range⟩
    · simp only [runAsg_cons, runAsg_nil, arith, Src.valM, set_eq]
      rw [if_neg (by simp)]
    · exact Only.set (Only.refl _ _) (by simp) _
  · rintro i k s1 hi ⟨h1, h2, h3⟩
    have hi : i < 32 := by simpa using hi
    have hsn : s1 n = s n := h2 n (by simpa using hne)
    have hk : i ∉ k := (List.nodup_cons.1 h3).1
    refine Does.trig (by simp; exact cMem_ok hn _ _ _) ?_ ?_ <;>
      simp only [holdsAll_cons, holdsAll_nil, Bool.and_true, cMem_holds, compare, decide_eq_true_eq, decide_eq_false_iff_not, runPA_cons, runPA_nil,
        aMem_run, hsn] <;> intro hc
    · have hc' : (s n).toNat = i := by rw [hc, BitVec.toNat_ofNat, Nat.mod_eq_of_lt (by omega)]
      refine ⟨actsOk_mem hr trivial, ?_, h2.set (by simp) _, (List.nodup_cons.1 h3).2⟩
      rw [set_eq, hc', if_pos ⟨hi, hk⟩]
      simp only [arith, pow2]
      exact BitVec.eq_of_toNat_eq (by rw [BitVec.toNat_twoPow, BitVec.toNat_ofNat])
    · have hc' : (s n).toNat ≠ i := fun e => hc (BitVec.eq_of_toNat_eq (by rw [e, BitVec.toNat_ofNat, Nat.mod_eq_of_lt (by omega)]))
      refine ⟨?_, h2, (List.nodup_cons.1 h3).2⟩
      rw [h1]
      simp [hc']
  · rintro s' ⟨h1, h2, -⟩
    refine ⟨?_, h2⟩
    rw [h1]
    by_cases h : (s n).toNat < 32
    · rw [if_pos ⟨h, by simp⟩]
    · rw [if_neg (by simp [h])]
      apply BitVec.eq_of_toNat_eq
      rw [BitVec.toNat_ofNat]
      exact (Nat.mod_eq_zero_of_dvd (Nat.pow_dvd_pow 2 (by omega))).symm

/-- muldiv.py `_eud_div` by definition -/
def udivE (a b : W) : W := if b = 0 then 0xFFFFFFFF else a / b

/-- bitwise.py:99-119: the beginning and end of `_f_bitrshift`: `sc` is `skip_check`, `here` is `skip_to_here`. -/
structure RshiftCode (L : Layout) (b ret sc here expo rf : Nat) : Prop where
  b0 : (⟨sc, ⟨[sChk (b + 348) .atLeast 32 0xFFFFFFFF], [sMem (ret + 348) .set 0, sNext sc here]⟩, none, false⟩ : SBlk) ∈ L.P.blks
  b1 : (⟨here, ⟨[], [sNext sc expo]⟩, some rf, false⟩ : SBlk) ∈ L.P.blks
  rest : (sc, expo) ∈ L.rest
  vb : b ∈ L.P.vars
  vr : ret ∈ L.P.vars
  lh : here < 2 ^ 32

theorem rshift_skip {L : Layout} (hw : L.Wf) {b ret sc here expo rf : Nat} (hc : RshiftCode L b ret sc here expo rf) (s : Mem) :
    if 32 ≤ (s (b + 348)).toNat then L.Runs s sc (s.set (ret + 348) 0) rf else L.Runs s sc s expo := by
  have hcb := cell_val hw hc.vb
  have hcr := cell_val hw hc.vr
  have hdat := hw.rdat _ hc.rest
  have hne : sc + 4 ≠ ret + 348 := fun e => hcr.2 (e ▸ Layout.Wf.privR hc.rest)
  have hcond : ∀ m : Mem, condsS m [sChk (b + 348) .atLeast 32 0xFFFFFFFF] (sc + 8) = decide (32 ≤ (m (b + 348)).toNat) := by
    intro m
    simp only [condsS, sChk_res, Bool.and_true, and_full, compare, BitVec.le_def]
    rfl
  split
  · rename_i h
    rintro m hm rfl
    rw [Layout.view_at hcb.2] at h
    have hs := hm.prog.step hc.b0 rfl ⟨sChk_ready _ _ _ _ _ _, trivial⟩ (fun _ => Prog.acts_mem hcr.1 (Prog.acts_next hdat trivial))
    simp only [SBlk.exec, hcond, decide_eq_true h, if_true, runS, sMem_apply, sNext_apply, set_eq, arith] at hs
    rw [BitVec.toNat_ofNat, Nat.mod_eq_of_lt hc.lh] at hs
    have h2 := hs.2.step_next hc.b1 rfl rfl trivial (fun _ => Prog.acts_next hdat trivial)
    simp only [SBlk.exec, condsS, if_true, runS, sNext_apply, set_set] at h2
    rw [(hm.set hcr 0).set_rest hc.rest] at h2
    exact ⟨_, Reaches.head hs.1 (Reaches.step h2.1), hm.set hcr 0, Layout.view_set hcr.2⟩
  · rename_i h
    rintro m hm rfl
    rw [Layout.view_at hcb.2] at h
    have hs := hm.prog.step hc.b0 rfl ⟨sChk_ready _ _ _ _ _ _, trivial⟩ (fun hh => by simp only [hcond] at hh; exact absurd (of_decide_eq_true hh) h)
    simp only [SBlk.exec, hcond, decide_eq_false h, if_false, Bool.false_eq_true] at hs
    rw [hm.rest _ hc.rest, BitVec.toNat_ofNat, Nat.mod_eq_of_lt (hw.rlt _ hc.rest)] at hs
    exact ⟨m, Reaches.step hs.1, hm, rfl⟩

/-- **C22 (right shift).** For every amount.  `e2` is the call of `_exp2_vv` into the variable `p`, `dv` the division into the variable `q`. -/
theorem C22_rshift {L : Layout} (hw : L.Wf) {a b ret p q sc here expo rf : Nat} (hc : RshiftCode L b ret sc here expo rf) {e2 dv : Stmt} {scr1 scr2 : List Nat}
    (h2 : Comp L e2 (p + 348) (fun s => BitVec.ofNat 32 (2 ^ (s (b + 348)).toNat)) scr1)
    (hd : Comp L dv (q + 348) (fun s => udivE (s (a + 348)) (s (p + 348))) scr2) (vq : q ∈ L.P.vars)
    (ha : a + 348 ∉ (p + 348) :: scr1) {r b' k : Nat} (hcode : Code L r b' k (.seqs [e2, dv, .asg [⟨ret + 348, .set, .var q⟩]]) expo rf) (s : Mem) :
    ∃ s', L.Runs s sc s' rf ∧ s' (ret + 348) = s (a + 348) >>> (s (b + 348)).toNat ∧
      Only ((ret + 348) :: (p + 348) :: (q + 348) :: (scr1 ++ scr2)) s s' := by
  have hk := rshift_skip hw hc s
  split at hk
  · rename_i h
    refine ⟨_, hk, ?_, Only.set (Only.refl _ _) (by simp) _⟩
    rw [set_eq]
    apply BitVec.eq_of_toNat_eq
    rw [BitVec.toNat_ushiftRight, Nat.shiftRight_eq_div_pow]
    refine (Nat.div_eq_of_lt (Nat.lt_of_lt_of_le (s (a + 348)).isLt (Nat.pow_le_pow_right (by omega) h))).symm
  · rename_i h
    have hdo : Does L (.seqs [e2, dv, .asg [⟨ret + 348, .set, .var q⟩]]) s fun s' => s' (ret + 348) = s (a + 348) >>> (s (b + 348)).toNat ∧
        Only ((ret + 348) :: (p + 348) :: (q + 348) :: (scr1 ++ scr2)) s s' := by
      refine Does.seq ((h2 s).mono ?_)
      rintro s1 ⟨g1, g2⟩
      refine Does.seq ((hd s1).mono ?_)
      rintro s2 ⟨g3, g4⟩
      refine Does.seq (Does.asg (by simp; exact cell_val hw hc.vr) (by simpa using vq) (Does.skip ⟨?_, ?_⟩))
      · simp only [runAsg_cons, runAsg_nil, arith, Src.valM, set_eq]
        simp only at g1 g3
        rw [g3, g1, g2 _ ha]
        have hpos : 2 ^ (s (b + 348)).toNat < 2 ^ 32 := Nat.pow_lt_pow_right (by omega) (by omega)
        have hp0 : 0 < 2 ^ (s (b + 348)).toNat := Nat.pow_pos (by omega)
        have hto : (BitVec.ofNat 32 (2 ^ (s (b + 348)).toNat)).toNat = 2 ^ (s (b + 348)).toNat := by rw [BitVec.toNat_ofNat, Nat.mod_eq_of_lt hpos]
        unfold udivE
        rw [if_neg (fun e => by rw [e] at hto; simp at hto; omega)]
        apply BitVec.eq_of_toNat_eq
        rw [BitVec.toNat_udiv, hto, BitVec.toNat_ushiftRight, Nat.shiftRight_eq_div_pow]
      · refine Only.set (Only.trans (g2.mono ?_) (g4.mono ?_)) (by simp) _
        · intro x hx; simp only [List.mem_cons, List.mem_append] at hx ⊢; rcases hx with hx | hx <;> simp [hx]
        · intro x hx; simp only [List.mem_cons, List.mem_append] at hx ⊢; rcases hx with hx | hx <;> simp [hx]
    obtain ⟨s', r1, r2⟩ := hdo.runs hw hcode
    exact ⟨s', hk.trans r1, r2⟩

/-- The division that `C22_rshift` wants: a call of `_eud_div` with the quotient stored in `q` and the remainder in `rm` (muldiv.py:484-489). -/
theorem C21_call {L : Layout} (hw : L.Wf) {fend nptr fstart back a b ret x r0 r1 q rm : Nat} {t : Nat → Nat} {sa sb : Src} {scr : List Nat}
    (hc : DivCells L (a + 348) (ret + 348) x t) (va : a ∈ L.P.vars) (vb : b ∈ L.P.vars)
    (vr : ret ∈ L.P.vars) (c0 : L.cell (r0 + 348)) (c1 : L.cell (r1 + 348)) (hb : b ≠ ret) (h0 : a ≠ r0) (h01 : r0 ≠ r1)
    (hscr : scr = (r0 + 348) :: (r1 + 348) :: divOnly (a + 348) (ret + 348) x t)
    (hk : CallOk L nptr [(r0, q + 348), (r1, rm + 348)] [(a + 348, sa), (b + 348, sb)] scr)
    (hF : FuncCode L fstart fend nptr [r0, r1] (eudDiv a b ret x r0 r1 t)) (hback : back < 2 ^ 32) :
    Comp2 L (.prim (CallRel L fend nptr back (eudDiv a b ret x r0 r1 t) [(r0, q + 348), (r1, rm + 348)] [(a + 348, sa), (b + 348, sb)])) (q + 348) (rm + 348)
      (fun s => udivE (sa.valM s) (sb.valM s)) (fun s => if sb.valM s = 0 then sa.valM s else sa.valM s % sb.valM s)
      (callOnly nptr [(r0, q + 348), (r1, rm + 348)] [(a + 348, sa), (b + 348, sb)] scr) := by
  intro s
  refine (C31_does hw hk hF hback (Q := fun s2 => s2 (r0 + 348) = udivE (sa.valM s) (sb.valM s) ∧
    s2 (r1 + 348) = if sb.valM s = 0 then sa.valM s else sa.valM s % sb.valM s) ?_).mono ?_
  · intro s1 h1 _
    have e1 : s1 (a + 348) = sa.valM s := h1 (a + 348, sa) (by simp)
    have e2 : s1 (b + 348) = sb.valM s := h1 (b + 348, sb) (by simp)
    refine (C21_div hc va vb vr c0 c1 hb h0 h01 s1).mono ?_
    rintro o s2 ⟨rfl, g1, g2, g3⟩
    rw [e1, e2] at g1 g2
    refine ⟨Or.inr rfl, ⟨?_, ?_⟩, hscr ▸ g3⟩
    · apply BitVec.eq_of_toNat_eq
      rw [g1]
      unfold udivE
      split
      · rfl
      · exact BitVec.toNat_udiv.symm
    · apply BitVec.eq_of_toNat_eq
      rw [g2]
      split
      · rfl
      · exact BitVec.toNat_umod.symm
  · rintro s' ⟨⟨s2, ⟨h1, h2⟩, h3, -⟩, h4⟩
    exact ⟨by rw [h3 (r0, q + 348) (by simp), h1], by rw [h3 (r1, rm + 348) (by simp), h2], h4.mono fun x hx => by simp [hx]⟩

end Eud.SC
