import Verif.Lib.Patch
import Verif.Lib.ByteWrite
import Verif.Lib.ConstMulDiv
/-
C37: `EUDByteReader` and `EUDByteWriter` (memio/byterw.py:18-236).
-/

namespace Eud.SC

/-! ## Specification -/

/-- Memory after the byte at the address `p` became `b`. -/
def putByte (m : Mem) (p : Nat) (b : BitVec 8) : Mem := m.set (p / 4 * 4) (modify .set (m (p / 4 * 4)) (b.setWidth 32 <<< (8 * (p % 4))) (byteMask 1 (p % 4)))

/-- One byte changes, and no other. -/
theorem byteAt_put (m : Mem) (p : Nat) (b : BitVec 8) (q : Nat) : byteAt (putByte m p b) q = if q = p then b else byteAt m q := by
  unfold byteAt putByte
  by_cases h : q / 4 * 4 = p / 4 * 4
  · rw [h, set_eq, set_bytes _ _ 1 (p % 4) (q % 4) (by omega)]
    by_cases hq : q = p
    · subst hq
      rw [if_pos (by omega), if_pos rfl]
      apply BitVec.eq_of_getLsbD_eq
      intro i hi
      simp only [BitVec.getLsbD_extractLsb', hi, decide_true, Bool.true_and, BitVec.getLsbD_shiftLeft, BitVec.getLsbD_setWidth]
      have e1 : 8 * (q % 4) + i < 32 := by omega
      have e2 : ¬ 8 * (q % 4) + i < 8 * (q % 4) := by omega
      have e3 : 8 * (q % 4) + i - 8 * (q % 4) = i := by omega
      have e4 : i < 32 := by omega
      simp [e1, e3, e4]
    · rw [if_neg (by omega), if_neg hq]
  · rw [set_ne h, if_neg (fun e => h (by rw [e]))]

/-- Dwords other than that of the byte stay the same. -/
theorem putByte_ne {m : Mem} {p x : Nat} {b : BitVec 8} (h : x ≠ p / 4 * 4) : putByte m p b x = m x := set_ne h

/-! ## Addresses -/

theorem epdAddr_mod (e : W) : epdAddr e % 4 = 0 := by unfold epdAddr deathTable; omega
theorem epdAddr_lt (e : W) : epdAddr e < 2 ^ 32 := by unfold epdAddr; omega
theorem epdAddr_succ (e : W) : epdAddr (e + 1) = (epdAddr e + 4) % 2 ^ 32 := by
  unfold epdAddr
  rw [BitVec.toNat_add, show (1 : W).toNat = 1 from rfl]
  omega

theorem plain_of_ok {e : W} (h : EpdOK (epdAddr e)) : PlainEpd e := by
  obtain ⟨-, -, h⟩ := h
  unfold epdAddr at h
  have := e.isLt
  simp only [deathTable] at h
  unfold PlainEpd
  omega

/-- The address after `p`. -/
def nextB (p : Nat) : Nat := (p + 1) % 2 ^ 32

theorem nextB_low {p : Nat} (hp : p < 2 ^ 32) (h : p % 4 ≠ 3) : nextB p = p + 1 ∧ nextB p / 4 * 4 = p / 4 * 4 ∧ nextB p % 4 = p % 4 + 1 := by unfold nextB; omega
theorem nextB_high {p : Nat} (hp : p < 2 ^ 32) (h : p % 4 = 3) : nextB p / 4 * 4 = (p / 4 * 4 + 4) % 2 ^ 32 ∧ nextB p % 4 = 0 := by unfold nextB; omega
theorem nextB_lt (p : Nat) : nextB p < 2 ^ 32 := by unfold nextB; omega

/-! ## Readers -/

/-- byterw.py:24-37: the trigger `_read` and the triggers `_case`. -/
structure BRd where
  rd : Nat
  cs : Nat → Nat

/-- byterw.py:29-36: the actions of `_case[i]`. -/
def BRd.caseActs (R : BRd) (i : Nat) : List PA :=
  aMem (R.rd + 4) .set (BitVec.ofNat 32 (R.cs ((i + 1) % 4))) :: if i = 3 then [aMem (R.rd + 348) .add 1] else []

/-- The triggers of a reader; `br i` is the reader of the byte `i` of a dword (readtable.py `_br`). -/
structure BRdOk (L : Layout) (rend : Nat) (R : BRd) (br : Nat → Nat) : Prop where
  b : (⟨R.rd, ⟨[], [aMemV cpAddr .set (R.rd + 328)].map PA.a⟩, none, false⟩ : SBlk) ∈ L.P.blks
  cb : ∀ i < 4, (⟨R.cs i, ⟨[], (R.caseActs i).map PA.a⟩, some (br i), false⟩ : SBlk) ∈ L.P.blks
  rdr : ∀ i < 4, Reader L rend (br i) (255 * 2 ^ (8 * i)) (-(8 * i : Nat))
  c4 : L.cell (R.rd + 4)
  c348 : L.cell (R.rd + 348)
  lt : ∀ i < 4, R.cs i < 2 ^ 32

/-- The reader is about to read the byte at address `p`. -/
def BRd.At (R : BRd) (s : Mem) (p : Nat) : Prop := s (R.rd + 4) = BitVec.ofNat 32 (R.cs (p % 4)) ∧ epdAddr (s (R.rd + 348)) = p / 4 * 4

/-- What reading changes besides the result. -/
def brScr (rend cpc : Nat) (R : BRd) : List Nat := [rend + 4, rend + 344, rend + 348, cpc + 4, cpc + 344, cpAddr, R.rd + 4, R.rd + 348]

/-- What reading the byte at `p` does. -/
def brRes (rend cpc : Nat) (R : BRd) (nxt o p : Nat) (s : Mem) : List (Nat × W) :=
  [(rend + 4, BitVec.ofNat 32 cpc), (cpc + 4, BitVec.ofNat 32 nxt), (cpc + 344, epd cpAddr), (rend + 344, epd o), (R.rd + 4, BitVec.ofNat 32 (R.cs ((p % 4 + 1) % 4))),
    (R.rd + 348, if p % 4 = 3 then s (R.rd + 348) + 1 else s (R.rd + 348)), (o, s (rend + 348) + (byteAt s p).setWidth 32), (rend + 348, 0), (cpAddr, s (cpc + 348))]

def BReadRel (L : Layout) (rend cpc : Nat) (R : BRd) (nxt o : Nat) (s s' : Mem) : Prop :=
  ∃ p, p < 2 ^ 32 ∧ R.At s p ∧ s (cpc + 352) = pmod .set ∧ ¬ L.priv (p / 4 * 4) ∧ p / 4 * 4 ∉ brScr rend cpc R ∧ s' = sets (brRes rend cpc R nxt o p s) s

/-- byterw.py:98-107: the actions of `readbyte`. -/
def brActs (rend cpc nxt o : Nat) : List PA :=
  [aMem (rend + 4) .set (BitVec.ofNat 32 cpc), aMem (cpc + 4) .set (BitVec.ofNat 32 nxt), aMem (cpc + 344) .set (epd cpAddr), aMem (rend + 344) .set (epd o)]

theorem byte_read (w : W) {i : Nat} (hi : i < 4) : readVal w (255 * 2 ^ (8 * i)) (-(8 * i : Nat)) = (w.extractLsb' (8 * i) 8).setWidth 32 := by
  rw [C32_field w 8 i]
  apply BitVec.eq_of_toNat_eq
  rw [BitVec.toNat_ofNat, BitVec.toNat_setWidth, BitVec.extractLsb'_toNat, Nat.shiftRight_eq_div_pow]

theorem BRd.caseActs_run {R : BRd} {i : Nat} (s : Mem) : runPA (R.caseActs i) s =
    sets [(R.rd + 4, BitVec.ofNat 32 (R.cs ((i + 1) % 4))), (R.rd + 348, if i = 3 then s (R.rd + 348) + 1 else s (R.rd + 348))] s := by
  unfold BRd.caseActs
  have n : R.rd + 348 ≠ R.rd + 4 := by omega
  by_cases h : i = 3
  · simp only [h, if_true, runPA_cons, runPA_nil, aMem_run, arith, sets]
    rw [set_ne n]
  · simp only [h, if_false, runPA_cons, runPA_nil, aMem_run, arith, sets]
    funext x
    simp only [get_set]
    by_cases hx : x = R.rd + 348
    · subst hx; rw [if_neg n, if_pos rfl]
    · rw [if_neg hx]

/-- The triggers of `readbyte` with those of the reader read the byte. -/
theorem bread_code {L : Layout} (hw : L.Wf) {T : RT} {A : Nat → Nat} {rend cpc nxt o e : Nat} {R : BRd} {br : Nat → Nat} (hT : RdTab L T A rend) (hR : BRdOk L rend R br) (hv : PVar L cpc)
    (hb : (⟨e, ⟨[], (brActs rend cpc nxt o).map PA.a⟩, some R.rd, false⟩ : SBlk) ∈ L.P.blks) (lt : cpc < 2 ^ 32 ∧ nxt < 2 ^ 32) (co : L.cell o) (eo : EpdOK o)
    (nd : (o :: (cpc + 348) :: (cpc + 352) :: brScr rend cpc R).Nodup) (r b k : Nat) :
    Code L r b k (.prim (BReadRel L rend cpc R nxt o)) e nxt := by
  refine .prim ?_
  rintro s s' ⟨p, hp, ⟨a1, a2⟩, h1, h3, h4, rfl⟩
  simp only [brScr, List.nodup_cons, List.mem_cons, not_or, List.not_mem_nil, not_false_eq_true, List.nodup_nil, and_true] at nd
  simp only [brScr, List.mem_cons, not_or, List.not_mem_nil, not_false_eq_true, and_true] at h4
  have hi : p % 4 < 4 := by omega
  -- the trigger of the call
  have g0 := runs_acts hw hb ⟨aMem_static _ _ _, aMem_static _ _ _, aMem_static _ _ _, aMem_static _ _ _, trivial⟩ (s := s)
    ⟨fun h => (by cases h), hT.c4, fun h => (by cases h), hv.nxt, fun h => (by cases h), hv.dst, fun h => (by cases h), hT.c344, trivial⟩
  have e0 : runPA (brActs rend cpc nxt o) s = sets [(rend + 4, BitVec.ofNat 32 cpc), (cpc + 4, BitVec.ofNat 32 nxt), (cpc + 344, epd cpAddr), (rend + 344, epd o)] s := by
    simp only [brActs, runPA_cons, runPA_nil, aMem_run, arith, sets]
  rw [e0] at g0
  generalize hs1 : sets [(rend + 4, BitVec.ofNat 32 cpc), (cpc + 4, BitVec.ofNat 32 nxt), (cpc + 344, epd cpAddr), (rend + 344, epd o)] s = s1 at g0
  have v1 : ∀ x, x ∉ [rend + 4, cpc + 4, cpc + 344, rend + 344] → s1 x = s x := fun x hx => by rw [← hs1]; exact sets_out hx
  have nd1 : [rend + 4, cpc + 4, cpc + 344, rend + 344].Nodup := by simp only [List.nodup_cons, List.mem_cons, not_or, List.not_mem_nil, not_false_eq_true, List.nodup_nil, and_true]; grind
  have w1 : ∀ a w, (a, w) ∈ [(rend + 4, BitVec.ofNat 32 cpc), (cpc + 4, BitVec.ofNat 32 nxt), (cpc + 344, epd cpAddr), (rend + 344, epd o)] → s1 a = w := fun a w h => by
    rw [← hs1]; exact sets_at nd1 h
  -- the trigger `_read`
  have g1 := Layout.Runs.dyn (L := L) hw (cs := []) (as := [aMemV cpAddr .set (R.rd + 328)]) hR.b hR.c4.2 trivial ⟨rfl, trivial⟩ (s := s1) (by simp) (fun _ => actsOk_memV hT.cp trivial)
  have q348 : s1 (R.rd + 348) = s (R.rd + 348) := v1 _ (by simp only [List.mem_cons, not_or, List.not_mem_nil, not_false_eq_true, and_true]; grind)
  have q4 : s1 (R.rd + 4) = s (R.rd + 4) := v1 _ (by simp only [List.mem_cons, not_or, List.not_mem_nil, not_false_eq_true, and_true]; grind)
  rw [if_pos (holdsAll_nil s1)] at g1
  simp only [runPA_cons, runPA_nil, aMemV_run, arith] at g1
  rw [show R.rd + 328 + 20 = R.rd + 348 from by omega, q348, set_ne (show R.rd + 4 ≠ cpAddr by grind), q4, a1, BitVec.toNat_ofNat, Nat.mod_eq_of_lt (hR.lt _ hi)] at g1
  generalize hs2 : s1.set cpAddr (s (R.rd + 348)) = s2 at g1
  -- the case
  have ca : ActsOk L (R.caseActs (p % 4)) s2 := by
    unfold BRd.caseActs
    refine actsOk_mem hR.c4 ?_
    split
    · exact actsOk_mem hR.c348 trivial
    · trivial
  have cp' : PlacedA (R.cs (p % 4) + 328) (R.caseActs (p % 4)) := by
    unfold BRd.caseActs
    refine ⟨aMem_static _ _ _, ?_⟩
    split
    · exact ⟨aMem_static _ _ _, trivial⟩
    · trivial
  have g2 := runs_acts hw (hR.cb _ hi) cp' ca
  have r348 : s2 (R.rd + 348) = s (R.rd + 348) := by rw [← hs2, set_ne (by grind), q348]
  rw [BRd.caseActs_run, r348] at g2
  generalize hs3 : sets [(R.rd + 4, BitVec.ofNat 32 (R.cs ((p % 4 + 1) % 4))), (R.rd + 348, if p % 4 = 3 then s (R.rd + 348) + 1 else s (R.rd + 348))] s2 = s3 at g2
  have v3 : ∀ x, x ≠ R.rd + 4 → x ≠ R.rd + 348 → s3 x = s2 x := fun x hx hy => by
    rw [← hs3]; exact sets_out (by simp only [List.map_cons, List.map_nil, List.mem_cons, not_or, List.not_mem_nil, not_false_eq_true, and_true]; exact ⟨hx, hy⟩)
  have z : ∀ x, x ≠ R.rd + 4 → x ≠ R.rd + 348 → x ≠ cpAddr → s3 x = s1 x := fun x a b c => by rw [v3 x a b, ← hs2, set_ne c]
  have zc : s3 cpAddr = s (R.rd + 348) := by rw [v3 _ (by grind) (by grind), ← hs2, set_eq]
  -- the reader
  have g3 := reader_back hw hT (hR.rdr _ hi) hv lt.1 lt.2 (s := s3) (by rw [zc, a2]; exact h3) (by rw [zc, a2]; exact h4.2.2.1) (by rw [z _ (by grind) (by grind) (by grind)]; exact w1 _ _ (by simp))
    (by rw [z _ (by grind) (by grind) (by grind)]; exact w1 _ _ (by simp)) eo co (by rw [z _ (by grind) (by grind) (by grind)]; exact w1 _ _ (by simp)) (by rw [z _ (by grind) (by grind) (by grind)]; exact w1 _ _ (by simp))
    (by rw [z _ (by grind) (by grind) (by grind), v1 _ (by simp only [List.mem_cons, not_or, List.not_mem_nil, not_false_eq_true, and_true]; grind), h1])
    (by simp only [List.mem_cons, not_or, List.not_mem_nil, not_false_eq_true, and_true]; grind) (by simp only [List.mem_cons, not_or, List.not_mem_nil, not_false_eq_true, and_true]; grind) (by grind)
  have e3 : sets [(o, s3 (rend + 348) + readVal (s3 (epdAddr (s3 cpAddr))) (255 * 2 ^ (8 * (p % 4))) (-(8 * (p % 4) : Nat))), (rend + 348, 0), (cpAddr, s3 (cpc + 348))] s3 = sets (brRes rend cpc R nxt o p s) s := by
    rw [zc, a2, byte_read _ hi, z (rend + 348) (by grind) (by grind) (by grind), v1 (rend + 348) (by simp only [List.mem_cons, not_or, List.not_mem_nil, not_false_eq_true, and_true]; grind),
      z (p / 4 * 4) (by grind) (by grind) (by grind), v1 (p / 4 * 4) (by simp only [List.mem_cons, not_or, List.not_mem_nil, not_false_eq_true, and_true]; grind),
      z (cpc + 348) (by grind) (by grind) (by grind), v1 (cpc + 348) (by simp only [List.mem_cons, not_or, List.not_mem_nil, not_false_eq_true, and_true]; grind), ← hs3, ← hs2, ← hs1]
    simp only [brRes, sets]
    unfold byteAt
    funext x
    by_cases hx : x = cpAddr <;> simp only [get_set, hx, if_true, if_false]
  rw [e3] at g3
  exact ((g0.trans g1).trans g2).trans g3

/-- **Reading a byte**: the result is the byte at the position, and the position goes on by one. -/
theorem bread_does {L : Layout} {rend cpc nxt o p : Nat} {R : BRd} (nd : (o :: (cpc + 348) :: (cpc + 352) :: brScr rend cpc R).Nodup) {s : Mem} (hp : p < 2 ^ 32) (ha : R.At s p)
    (hm : s (cpc + 352) = pmod .set) (h0 : s (rend + 348) = 0) (hpr : ¬ L.priv (p / 4 * 4)) (hn : p / 4 * 4 ∉ brScr rend cpc R) :
    Does L (.prim (BReadRel L rend cpc R nxt o)) s fun s' => s' o = (byteAt s p).setWidth 32 ∧ R.At s' (nextB p) ∧ s' cpAddr = s (cpc + 348) ∧ s' (rend + 348) = 0 ∧
      Only (o :: brScr rend cpc R) s s' := by
  refine Does.prim ⟨p, hp, ha, hm, hpr, hn, rfl⟩ ?_
  have nd2 : ((brRes rend cpc R nxt o p s).map Prod.fst).Nodup := by
    simp only [brScr, brRes, List.map_cons, List.map_nil, List.nodup_cons, List.mem_cons, not_or, List.not_mem_nil, not_false_eq_true, List.nodup_nil, and_true] at nd ⊢
    grind
  have w : ∀ a w, (a, w) ∈ brRes rend cpc R nxt o p s → sets (brRes rend cpc R nxt o p s) s a = w := fun a w h => sets_at nd2 h
  refine ⟨?_, ⟨?_, ?_⟩, w _ _ (by simp [brRes]), w _ _ (by simp [brRes]), ?_⟩
  · rw [w o (s (rend + 348) + (byteAt s p).setWidth 32) (by simp [brRes]), h0, show (0 : W) = 0#32 from rfl, BitVec.zero_add]
  · rw [w (R.rd + 4) (BitVec.ofNat 32 (R.cs ((p % 4 + 1) % 4))) (by simp [brRes])]
    by_cases h : p % 4 = 3
    · rw [(nextB_high hp h).2, h]
    · rw [(nextB_low hp h).2.2, Nat.mod_eq_of_lt (by omega : p % 4 + 1 < 4)]
  · rw [w (R.rd + 348) (if p % 4 = 3 then s (R.rd + 348) + 1 else s (R.rd + 348)) (by simp [brRes])]
    by_cases h : p % 4 = 3
    · rw [if_pos h, epdAddr_succ, ha.2, (nextB_high hp h).1]
    · rw [if_neg h, ha.2, (nextB_low hp h).2.1]
  · refine (sets_only _ s).mono fun x hx => ?_
    simp only [brRes, brScr, List.map_cons, List.map_nil, List.mem_cons, List.not_mem_nil, or_false] at hx ⊢
    grind

/-! ## Writers -/

/-- byterw.py:113-132, 169-211: the trigger `_write`, the dword `_suboffset`, the parameter of `_writebyte`, where case 0 goes on, the end of the function and the dword with its
next pointer (`_return`), and the triggers `_const`. -/
structure BWr where
  wr : Nat
  sub : Nat
  v : Nat
  n0 : Nat
  fe : Nat
  np : Nat
  c : Nat → Nat

/-- The writer is about to write the byte at address `p`. -/
def BWr.At (W : BWr) (s : Mem) (p : Nat) : Prop := s W.sub = BitVec.ofNat 32 (p % 4) ∧ epdAddr (s (W.wr + 344)) = p / 4 * 4 ∧ s (W.wr + 348) = 0

/-- An action at `p` whose destination, value and mask are looked up when it runs. -/
def aHole (p : Nat) : PA := ⟨⟨none, .set, none, none⟩, some p⟩

theorem aHole_spec {L : Layout} {p : Nat} {s : Mem} (h : PlainEpd (s (p + 16))) (hc : L.cell (epdAddr (s (p + 16)))) {ps : List PA}
    (hr : ActsOk L ps (s.set (epdAddr (s (p + 16))) (modify .set (s (epdAddr (s (p + 16)))) (s (p + 20)) (s p)))) :
    (aHole p).run s = s.set (epdAddr (s (p + 16))) (modify .set (s (epdAddr (s (p + 16)))) (s (p + 20)) (s p)) ∧ ActsOk L (aHole p :: ps) s := by
  have hd : (aHole p).a.res s ((aHole p).pos.getD 0) = ⟨.mem (epdAddr (s (p + 16))), .set, s (p + 20), s p⟩ := by
    simp only [aHole, SAct.res, Option.getD_some, Option.getD_none, dstOf_plain h]
  have e : (aHole p).run s = s.set (epdAddr (s (p + 16))) (modify .set (s (epdAddr (s (p + 16)))) (s (p + 20)) (s p)) := by
    simp only [PA.run, hd, Act.apply, Dst.addr]
  refine ⟨e, ?_, ?_, ?_⟩
  · intro _
    simp only [aHole, Option.getD_some, dstOf_plain h, Option.isSome_some]
  · rw [hd]; exact hc
  · rw [e]; exact hr

/-- byterw.py:197-210: the trigger `_write` and the one after it. -/
def bwTail (W : BWr) : Stmt :=
  .seq (.trig [] [aHole (W.wr + 328), aMem W.sub .add 1, aMem (W.wr + 348) .set 0]) (.trig [cMem W.sub .atLeast 4] [aMem W.sub .set 0, aMem (W.wr + 344) .add 1])

/-- The dwords of a writer are visible, and different. -/
structure BWrOk (L : Layout) (W : BWr) : Prop where
  c328 : L.cell (W.wr + 328)
  c344 : L.cell (W.wr + 344)
  c348 : L.cell (W.wr + 348)
  csub : L.cell W.sub
  ns : W.sub ∉ [W.wr + 328, W.wr + 344, W.wr + 348]

/-- What the end of a writer does. -/
theorem bwTail_does {L : Layout} {W : BWr} (hW : BWrOk L W) {s : Mem} {p : Nat} (hp : p < 2 ^ 32) (h1 : s W.sub = BitVec.ofNat 32 (p % 4)) (h2 : epdAddr (s (W.wr + 344)) = p / 4 * 4)
    (h3 : s (W.wr + 328) = byteMask 1 (p % 4)) (ho : EpdOK (p / 4 * 4)) (hc : L.cell (p / 4 * 4)) (hn : p / 4 * 4 ∉ [W.wr + 328, W.wr + 344, W.wr + 348, W.sub]) :
    Does L (bwTail W) s fun s' => s' (p / 4 * 4) = modify .set (s (p / 4 * 4)) (s (W.wr + 348)) (byteMask 1 (p % 4)) ∧ W.At s' (nextB p) ∧
      Only [p / 4 * 4, W.sub, W.wr + 344, W.wr + 348] s s' := by
  have ns := hW.ns
  simp only [List.mem_cons, List.not_mem_nil, or_false, not_or] at hn ns
  have hpl : PlainEpd (s (W.wr + 328 + 16)) := plain_of_ok (by rw [Nat.add_assoc, show 328 + 16 = 344 from rfl, h2]; exact ho)
  obtain ⟨r1, r2⟩ := aHole_spec (L := L) (p := W.wr + 328) (ps := [aMem W.sub .add 1, aMem (W.wr + 348) .set 0]) hpl (by rw [Nat.add_assoc, show 328 + 16 = 344 from rfl, h2]; exact hc)
    (actsOk_mem hW.csub (actsOk_mem hW.c348 trivial))
  rw [Nat.add_assoc, show 328 + 16 = 344 from rfl, Nat.add_assoc, show 328 + 20 = 348 from rfl, h2, h3] at r1
  refine Does.seq (Does.acts r2 ?_)
  simp only [runPA_cons, runPA_nil, aMem_run, r1, arith]
  rw [set_ne (show W.sub ≠ p / 4 * 4 by grind), h1]
  generalize modify .set (s (p / 4 * 4)) (s (W.wr + 348)) (byteMask 1 (p % 4)) = u
  generalize hs1 : ((s.set (p / 4 * 4) u).set W.sub (BitVec.ofNat 32 (p % 4) + 1)).set (W.wr + 348) 0 = s1
  have eA : s1 (p / 4 * 4) = u := by rw [← hs1, set_ne (by grind), set_ne (by grind), set_eq]
  have es : s1 W.sub = BitVec.ofNat 32 (p % 4) + 1 := by rw [← hs1, set_ne (by grind), set_eq]
  have e344 : s1 (W.wr + 344) = s (W.wr + 344) := by rw [← hs1, set_ne (by grind), set_ne (by grind), set_ne (by grind)]
  have e348 : s1 (W.wr + 348) = 0 := by rw [← hs1, set_eq]
  have o1 : Only [p / 4 * 4, W.sub, W.wr + 344, W.wr + 348] s s1 := by rw [← hs1]; exact (((Only.refl _ s).set (by simp) _).set (by simp) _).set (by simp) _
  have et : (s1 W.sub).toNat = p % 4 + 1 := by rw [es, BitVec.toNat_add, BitVec.toNat_ofNat, show (1 : BitVec 32).toNat = 1 from rfl]; omega
  refine Does.trig (by simp only [List.mem_singleton, forall_eq]; exact cMem_ok hW.csub _ _ _) ?_ ?_ <;>
    simp only [holdsAll_cons, holdsAll_nil, Bool.and_true, cMem_holds, compare, decide_eq_true_eq, decide_eq_false_iff_not, BitVec.le_def, et, show (4 : BitVec 32).toNat = 4 from rfl] <;> intro hc4
  · have h : p % 4 = 3 := by omega
    obtain ⟨n1, n2⟩ := nextB_high hp h
    refine ⟨actsOk_mem hW.csub (actsOk_mem hW.c344 trivial), ?_⟩
    simp only [runPA_cons, runPA_nil, aMem_run, arith]
    refine ⟨by rw [set_ne (by grind), set_ne (by grind), eA], ⟨?_, ?_, ?_⟩, ?_⟩
    · rw [set_ne (by grind), set_eq, n2]; rfl
    · rw [set_eq, set_ne (by grind), e344, epdAddr_succ, h2, n1]
    · rw [set_ne (by grind), set_ne (by grind), e348]
    · exact (o1.set (by simp) _).set (by simp) _
  · have h : p % 4 ≠ 3 := by omega
    obtain ⟨-, n1, n2⟩ := nextB_low hp h
    refine ⟨eA, ⟨?_, ?_, e348⟩, o1⟩
    · rw [n2]
      apply BitVec.eq_of_toNat_eq
      rw [et, BitVec.toNat_ofNat]; omega
    · rw [e344, h2, n1]

/-! ### Writing the value of a variable -/

/-- byterw.py:186-192: bit `j` of the byte. -/
def bwBit (W : BWr) (i j : Nat) : Stmt := .trig [cMemX (W.v + 348) .atLeast 1 (pow2 j)] [aMem (W.wr + 348) .add (BitVec.ofNat 32 (2 ^ j * 2 ^ (8 * i)))]

/-- byterw.py:172-193: the case `i` of `_writebyte`. -/
def bwCase (L : Layout) (W : BWr) (i : Nat) : Stmt :=
  if i = 0 then .seq (vproc L W.v 0xFFFFFFFF W.n0 [aMem (W.v + 344) .set (epd (W.wr + 348)), aMem (W.wr + 328) .set 0xFF]) .brk
  else .seq (.trig [] [aMem (W.wr + 328) .set (BitVec.ofNat 32 (0xFF * 2 ^ (8 * i)))]) (.seq (.seqs ((List.range 8).map (bwBit W i))) .brk)

/-- byterw.py:169-211 `_writebyte`. -/
def bwBody (L : Layout) (W : BWr) : Stmt := .seq (.prim (SwRel L (fun s => s W.sub) (cases0 4 (bwCase L W)))) (bwTail W)

theorem byteMask_eq (i : Nat) : byteMask 1 i = BitVec.ofNat 32 (0xFF * 2 ^ (8 * i)) := by
  unfold byteMask
  rw [Nat.pow_mul]

/-- Only the low byte of a value counts. -/
theorem modify_byte {w x y : W} {i : Nat} (h : y = x <<< (8 * i) ∨ y = (x.setWidth 8).setWidth 32 <<< (8 * i)) :
    modify .set w y (byteMask 1 i) = modify .set w ((x.setWidth 8).setWidth 32 <<< (8 * i)) (byteMask 1 i) := by
  rcases h with rfl | rfl
  · apply BitVec.eq_of_getLsbD_eq
    intro j hj
    rw [modify_bit_set _ _ _ _ hj, modify_bit_set _ _ _ _ hj, byteMask_bit _ _ _ hj]
    by_cases h : 8 * i ≤ j ∧ j < 8 * i + 8 * 1
    · rw [if_pos (by simp only [Bool.and_eq_true, decide_eq_true_eq]; exact h), if_pos (by simp only [Bool.and_eq_true, decide_eq_true_eq]; exact h)]
      simp only [BitVec.getLsbD_shiftLeft, BitVec.getLsbD_setWidth]
      have a1 : j - 8 * i < 8 := by omega
      have a2 : j - 8 * i < 32 := by omega
      simp [a1, a2]
    · rw [if_neg (by simp only [Bool.and_eq_true, decide_eq_true_eq]; exact h), if_neg (by simp only [Bool.and_eq_true, decide_eq_true_eq]; exact h)]
  · rfl

/-- The parameter of a writer. -/
structure BWrVar (L : Layout) (W : BWr) : Prop where
  pv : PVar L W.v
  e348 : EpdOK (W.wr + 348)
  ne : ∀ x ∈ [W.v + 4, W.v + 344, W.v + 348, W.v + 352], x ∉ [W.wr + 328, W.wr + 344, W.wr + 348, W.sub]

theorem bwCase_does {L : Layout} {W : BWr} (hW : BWrOk L W) (hV : BWrVar L W) {s : Mem} {i : Nat} (hi : i < 4) (hm : s (W.v + 352) = pmod .set) (h0 : s (W.wr + 348) = 0) :
    Wp L (bwCase L W i) s fun o s' => o = .brk ∧ s' (W.wr + 328) = byteMask 1 i ∧
      (s' (W.wr + 348) = s (W.v + 348) <<< (8 * i) ∨ s' (W.wr + 348) = ((s (W.v + 348)).setWidth 8).setWidth 32 <<< (8 * i)) ∧ Only [W.v + 4, W.v + 344, W.wr + 328, W.wr + 348] s s' := by
  have n1 := hV.ne
  have ns := hW.ns
  simp only [List.mem_cons, List.not_mem_nil, or_false, not_or, forall_eq_or_imp, forall_eq] at n1 ns
  unfold bwCase
  by_cases h : i = 0
  · rw [if_pos h, h]
    refine Wp.seqN (vproc_full (acts := [aMem (W.v + 344) .set (epd (W.wr + 348)), aMem (W.wr + 328) .set 0xFF]) (s := s) hV.pv (actsOk_mem hV.pv.dst (actsOk_mem hW.c328 trivial)) (md := .set) (d := W.wr + 348) ?_ ?_ hV.e348 hW.c348 (by grind) ?_) <;>
      simp only [runPA_cons, runPA_nil, aMem_run, arith]
    · rw [set_ne (by grind), set_ne (by grind), hm]
    · rw [set_ne (by grind), set_eq]
    · refine Wp.brk ⟨rfl, ?_, Or.inl ?_, ?_⟩
      · rw [set_ne (by grind), set_ne (by grind), set_eq]; rfl
      · rw [set_eq, set_ne (by grind), set_ne (by grind)]; simp
      · exact ((((Only.refl _ s).set (by simp) _).set (by simp) _).set (by simp) _).set (by simp) _
  · rw [if_neg h]
    refine Wp.seqN (Does.acts (actsOk_mem hW.c328 trivial) ?_)
    simp only [runPA_cons, runPA_nil, aMem_run, arith]
    rw [← byteMask_eq]
    generalize hs1 : s.set (W.wr + 328) (byteMask 1 i) = s1
    have o1 : Only [W.wr + 328] s s1 := by rw [← hs1]; exact (Only.refl _ s).set (by simp) _
    have ev : s1 (W.v + 348) = s (W.v + 348) := o1 _ (by simp; grind)
    have key := Does.chain (L := L) (bwBit W i) (fun l s' => s' (W.wr + 348) + BitVec.ofNat 32 (bitsum (s (W.v + 348)) l * 2 ^ (8 * i)) =
      BitVec.ofNat 32 (bitsum (s (W.v + 348)) (List.range 8) * 2 ^ (8 * i)) ∧ Only [W.wr + 348] s1 s') (List.range 8) s1 ?_ ?_
    · refine Wp.seqN (key.mono ?_)
      rintro s2 ⟨e1, e2⟩
      refine Wp.brk ⟨rfl, ?_, Or.inr ?_, ?_⟩
      · rw [e2 _ (by simp), ← hs1, set_eq]
      · rw [bitsum_range _ 8 (by omega)] at e1
        simp only [bitsum, List.map_nil, List.sum_nil, Nat.zero_mul, BitVec.add_zero] at e1
        rw [e1]
        apply BitVec.eq_of_toNat_eq
        rw [BitVec.toNat_ofNat, BitVec.toNat_shiftLeft, BitVec.toNat_setWidth, BitVec.toNat_setWidth, Nat.shiftLeft_eq, Nat.mod_eq_of_lt (a := (s (W.v + 348)).toNat % 2 ^ 8) (by omega)]
      · exact (o1.mono (by simp)).trans (e2.mono (by simp))
    · refine ⟨?_, Only.refl _ _⟩
      rw [o1 _ (by simp), h0]; simp
    · rintro j k s2 hj ⟨e1, e2⟩
      have hj : j < 32 := by simp at hj; omega
      have ev2 : s2 (W.v + 348) = s (W.v + 348) := by rw [e2 _ (by simp; grind), ev]
      have hcons : bitsum (s (W.v + 348)) (j :: k) * 2 ^ (8 * i) = (if (s (W.v + 348)).getLsbD j then 2 ^ j else 0) * 2 ^ (8 * i) + bitsum (s (W.v + 348)) k * 2 ^ (8 * i) := by
        simp only [bitsum, List.map_cons, List.sum_cons, Nat.add_mul]
      rw [hcons] at e1
      refine Does.trig (by simp only [List.mem_singleton, forall_eq]; exact cMemX_ok hV.pv.val _ _ _ _) ?_ ?_ <;>
        simp only [holdsAll_cons, holdsAll_nil, Bool.and_true, cMemX_holds, runPA_cons, runPA_nil, aMem_run, ev2, pow2_bit _ hj] <;> intro hb <;>
        simp only [hb, if_true, Bool.false_eq_true, if_false] at e1
      · refine ⟨actsOk_mem hW.c348 trivial, ?_, e2.set (by simp) _⟩
        rw [set_eq, arith, BitVec.add_assoc, ← BitVec.ofNat_add]
        exact e1
      · refine ⟨?_, e2⟩
        rw [Nat.zero_mul, Nat.zero_add] at e1
        exact e1

/-- What a writer changes besides the byte. -/
def bwScr (W : BWr) : List Nat := [W.v + 4, W.v + 344, W.wr + 328, W.wr + 344, W.wr + 348, W.sub]

/-- The body of `_writebyte`. -/
theorem bwBody_does {L : Layout} {W : BWr} (hW : BWrOk L W) (hV : BWrVar L W) {s : Mem} {p : Nat} (hp : p < 2 ^ 32) (ha : W.At s p) (hm : s (W.v + 352) = pmod .set)
    (ho : EpdOK (p / 4 * 4)) (hc : L.cell (p / 4 * 4)) (hn : p / 4 * 4 ∉ bwScr W) :
    Does L (bwBody L W) s fun s' => s' (p / 4 * 4) = putByte s p ((s (W.v + 348)).setWidth 8) (p / 4 * 4) ∧ W.At s' (nextB p) ∧ Only ((p / 4 * 4) :: bwScr W) s s' := by
  have n1 := hV.ne
  have ns := hW.ns
  simp only [bwScr, List.mem_cons, List.not_mem_nil, or_false, not_or, forall_eq_or_imp, forall_eq] at n1 ns hn
  obtain ⟨a1, a2, a3⟩ := ha
  have hi : p % 4 < 4 := by omega
  have et : (s W.sub).toNat = p % 4 := by rw [a1, BitVec.toNat_ofNat]; omega
  have hl : (cases0 4 (bwCase L W)).lookup (s W.sub) = some (bwCase L W (p % 4)) := by
    rw [cases0_lookup (by omega), et, if_pos hi]
  refine Does.seq (Does.sw (fun h => by rw [hl] at h; cases h) (fun st h => ?_))
  rw [hl] at h
  obtain rfl := Option.some.inj h
  refine Wp.mono (bwCase_does hW hV hi hm a3) ?_
  rintro o s1 ⟨rfl, e1, e2, e3⟩
  refine ⟨rfl, ?_⟩
  have f1 : s1 W.sub = s W.sub := e3 _ (by simp only [List.mem_cons, not_or, List.not_mem_nil, not_false_eq_true, and_true]; grind)
  have f2 : s1 (W.wr + 344) = s (W.wr + 344) := e3 _ (by simp only [List.mem_cons, not_or, List.not_mem_nil, not_false_eq_true, and_true]; grind)
  have f3 : s1 (p / 4 * 4) = s (p / 4 * 4) := e3 _ (by simp only [List.mem_cons, not_or, List.not_mem_nil, not_false_eq_true, and_true]; grind)
  refine (bwTail_does hW hp (by rw [f1, a1]) (by rw [f2, a2]) e1 ho hc (by simp only [List.mem_cons, not_or, List.not_mem_nil, not_false_eq_true, and_true]; grind)).mono ?_
  rintro s2 ⟨g1, g2, g3⟩
  refine ⟨?_, g2, (e3.mono ?_).trans (g3.mono ?_)⟩
  · rw [g1, f3, modify_byte e2, putByte, set_eq]
  · intro x hx; simp only [bwScr, List.mem_cons, List.not_mem_nil, or_false] at hx ⊢; grind
  · intro x hx; simp only [bwScr, List.mem_cons, List.not_mem_nil, or_false] at hx ⊢; grind

/-- What `writebyte` of a variable changes besides the byte. -/
def bwOwn (W : BWr) : List Nat := W.np :: (W.v + 348) :: bwScr W

theorem CallOk.add {L : Layout} {np A : Nat} {args : List (Nat × Src)} {scr : List Nat} (h : CallOk L np [] args scr) (hA : np ≠ A) : CallOk L np [] args (A :: scr) :=
  { h with sn := by rw [List.mem_cons, not_or]; exact ⟨hA, h.sn⟩, sr := by simp }

/-- byterw.py:219-220: `writebyte` with a variable, or the call `_writebyte(0)`. -/
def bwCall (L : Layout) (W : BWr) (back : Nat) (x : Src) : Stmt := .prim (CallRel L W.fe W.np back (bwBody L W) [] [(W.v + 348, x)])

/-- **Writing the value of a variable**: the byte at the position becomes the low byte of the value, no other byte changes, and the position goes on by one. -/
theorem bwrite_does {L : Layout} (hw : L.Wf) {W : BWr} (hW : BWrOk L W) (hV : BWrVar L W) {fs back : Nat} {x : Src} (hF : FuncCode L fs W.fe W.np [] (bwBody L W)) (hb : back < 2 ^ 32)
    (hO : CallOk L W.np [] [(W.v + 348, x)] (bwScr W)) (hnm : W.np ≠ W.v + 352) {s : Mem} {p : Nat} (hp : p < 2 ^ 32) (ha : W.At s p) (hm : s (W.v + 352) = pmod .set)
    (ho : EpdOK (p / 4 * 4)) (hc : L.cell (p / 4 * 4)) (hn : p / 4 * 4 ∉ bwOwn W) :
    Does L (bwCall L W back x) s fun s' => (∀ y, y ∉ bwOwn W → s' y = putByte s p ((x.valM s).setWidth 8) y) ∧ W.At s' (nextB p) := by
  have n1 := hV.ne
  have sn := hO.sn
  have pn := hO.pn
  simp only [bwOwn, List.mem_cons, not_or] at hn
  simp only [bwScr, List.mem_cons, List.not_mem_nil, or_false, not_or, forall_eq_or_imp, forall_eq] at n1 sn
  simp only [List.mem_singleton, forall_eq] at pn
  obtain ⟨a1, a2, a3⟩ := ha
  refine (C31_does hw (hO.add (A := p / 4 * 4) (by grind)) hF hb (s := s)
    (Q := fun s2 => (∀ y, y ∉ bwOwn W → s2 y = putByte s p ((x.valM s).setWidth 8) y) ∧ W.At s2 (nextB p)) ?_).mono ?_
  · intro s1 e1 e2
    simp only [List.mem_singleton, forall_eq] at e1
    simp only [List.map_nil, List.nil_append, List.map_cons] at e2
    have f : ∀ y, y ≠ W.np → y ≠ W.v + 348 → s1 y = s y := fun y h1 h2 => e2 y (by simp only [List.mem_cons, List.not_mem_nil, or_false, not_or]; exact ⟨h1, h2⟩)
    refine Wp.mono (Does.wp (bwBody_does hW hV (s := s1) hp ⟨by rw [f _ (by grind) (by grind), a1], by rw [f _ (by grind) (by grind), a2], by rw [f _ (by grind) (by grind), a3]⟩
      (by rw [f _ (Ne.symm hnm) (by omega), hm]) ho hc hn.2.2)) ?_
    rintro o s2 ⟨rfl, g1, g2, g3⟩
    refine ⟨Or.inl rfl, ⟨fun y hy => ?_, g2⟩, g3⟩
    simp only [bwOwn, List.mem_cons, not_or] at hy
    by_cases hA : y = p / 4 * 4
    · subst hA
      rw [g1, e1, putByte, putByte, set_eq, set_eq, f _ hn.1 hn.2.1]
    · rw [putByte_ne hA, g3 y (by rw [List.mem_cons, not_or]; exact ⟨hA, hy.2.2⟩), f y hy.1 hy.2.1]
  · rintro s' ⟨⟨s2, ⟨q1, q2⟩, -, q3⟩, -⟩
    have e : s' = s2 := funext fun y => q3 y (by simp)
    subst e
    exact ⟨q1, q2⟩

/-! ### Writing a constant -/

/-- byterw.py:121-131: the triggers `_const`, then `_write`. -/
def bwConst (W : BWr) (i : Nat) : Stmt := .trig [cMem W.sub .exactly (BitVec.ofNat 32 i)] [aMemV (W.wr + 348) .set (W.c i + 328), aMem (W.wr + 328) .set (BitVec.ofNat 32 (0xFF * 2 ^ (8 * i)))]
def bwConstBody (W : BWr) : Stmt := .seq (.seqs ((List.range 4).map (bwConst W))) (bwTail W)

/-- byterw.py:222-233: the trigger of `writebyte(b)`. -/
def bwConstActs (W : BWr) (back b : Nat) : List PA :=
  (List.range 4).map (fun i => aMem (W.c i + 348) .set (BitVec.ofNat 32 (b * 2 ^ (8 * i)))) ++ [aMem W.np .set (BitVec.ofNat 32 back)]

def BWConstRel (L : Layout) (W : BWr) (back b : Nat) (s s' : Mem) : Prop :=
  ActsOk L (bwConstActs W back b) s ∧ Exec L (bwConstBody W) (runPA (bwConstActs W back b) s) .nrm s' ∧ s' W.np = BitVec.ofNat 32 back

theorem bwConst_code {L : Layout} (hw : L.Wf) {W : BWr} {back b e : Nat} (hF : FuncEnd L W.fe W.np []) (hbk : back < 2 ^ 32) {r0 b0 k0 : Nat} (hB : Code L r0 b0 k0 (bwConstBody W) (W.c 0) W.fe)
    (hb : (⟨e, ⟨[], (bwConstActs W back b).map PA.a⟩, some (W.c 0), false⟩ : SBlk) ∈ L.P.blks) (r b' k : Nat) : Code L r b' k (.prim (BWConstRel L W back b)) e back := by
  refine .prim ?_
  rintro s s' ⟨h1, h2, h3⟩
  have g0 := runs_acts hw hb (by
    exact ⟨aMem_static _ _ _, aMem_static _ _ _, aMem_static _ _ _, aMem_static _ _ _, aMem_static _ _ _, trivial⟩) h1
  have g1 : L.Runs (runPA (bwConstActs W back b) s) (W.c 0) s' W.fe := C25_structured hw h2 hB
  have g2 := (hF.runs hw (rs := []) (s := s') ⟨by simp, by simp, by simp⟩ (by simp) hbk h3).2
  exact (g0.trans g1).trans g2

/-- The dwords of the triggers `_const`. -/
def bwcOwn (W : BWr) : List Nat := [W.c 0 + 348, W.c 1 + 348, W.c 2 + 348, W.c 3 + 348]

structure BWrConst (L : Layout) (W : BWr) : Prop where
  cc : ∀ i < 4, L.cell (W.c i + 348)
  cn : L.cell W.np
  nd : (W.np :: bwcOwn W).Nodup
  ne : ∀ x ∈ W.np :: bwcOwn W, x ∉ [W.wr + 328, W.wr + 344, W.wr + 348, W.sub]

theorem bwConst_does {L : Layout} {W : BWr} (hW : BWrOk L W) (hC : BWrConst L W) {s : Mem} {i : Nat} (hi : i < 4) {Q : Mem → Prop}
    (h1 : s W.sub = BitVec.ofNat 32 i → Q ((s.set (W.wr + 348) (s (W.c i + 348))).set (W.wr + 328) (byteMask 1 i))) (h0 : s W.sub ≠ BitVec.ofNat 32 i → Q s) : Does L (bwConst W i) s Q := by
  refine Does.trig (by simp only [List.mem_singleton, forall_eq]; exact cMem_ok hW.csub _ _ _) ?_ ?_ <;>
    simp only [holdsAll_cons, holdsAll_nil, Bool.and_true, cMem_holds, compare, decide_eq_true_eq, decide_eq_false_iff_not] <;> intro h
  · refine ⟨actsOk_memV hW.c348 (actsOk_mem hW.c328 trivial), ?_⟩
    simp only [runPA_cons, runPA_nil, aMemV_run, aMem_run, arith]
    rw [← byteMask_eq]
    exact h1 h
  · exact h0 h

/-- What `writebyte` of a constant changes besides the byte. -/
def bwcScr (W : BWr) : List Nat := W.np :: (bwcOwn W ++ [W.wr + 328, W.wr + 344, W.wr + 348, W.sub])

/-- **Writing a constant**. -/
theorem bwriteC_does {L : Layout} {W : BWr} (hW : BWrOk L W) (hC : BWrConst L W) {back b : Nat} {s : Mem} {p : Nat} (hp : p < 2 ^ 32) (ha : W.At s p)
    (ho : EpdOK (p / 4 * 4)) (hc : L.cell (p / 4 * 4)) (hn : p / 4 * 4 ∉ bwcScr W) :
    Does L (.prim (BWConstRel L W back b)) s fun s' => (∀ y, y ∉ bwcScr W → s' y = putByte s p (BitVec.ofNat 8 b) y) ∧ W.At s' (nextB p) := by
  have hns := hW.ns
  have hne := hC.ne
  have hnd := hC.nd
  simp only [bwcOwn, List.nodup_cons, List.mem_cons, not_or, List.not_mem_nil, not_false_eq_true, List.nodup_nil, and_true, or_false, forall_eq_or_imp, forall_eq] at hns hne hnd
  simp only [bwcScr, bwcOwn, List.cons_append, List.nil_append, List.mem_cons, List.not_mem_nil, or_false, not_or] at hn
  obtain ⟨a1, a2, a3⟩ := ha
  have hi : p % 4 < 4 := by omega
  have hok : ActsOk L (bwConstActs W back b) s :=
    actsOk_mem (hC.cc 0 (by omega)) (actsOk_mem (hC.cc 1 (by omega)) (actsOk_mem (hC.cc 2 (by omega)) (actsOk_mem (hC.cc 3 (by omega)) (actsOk_mem hC.cn trivial))))
  have e0 : runPA (bwConstActs W back b) s = sets [(W.c 0 + 348, BitVec.ofNat 32 (b * 2 ^ (8 * 0))), (W.c 1 + 348, BitVec.ofNat 32 (b * 2 ^ (8 * 1))), (W.c 2 + 348, BitVec.ofNat 32 (b * 2 ^ (8 * 2))),
      (W.c 3 + 348, BitVec.ofNat 32 (b * 2 ^ (8 * 3))), (W.np, BitVec.ofNat 32 back)] s := by
    rw [← runPA_setL]; rfl
  generalize hs1 : runPA (bwConstActs W back b) s = s1 at e0
  have v1 : ∀ x, x ∉ W.np :: bwcOwn W → s1 x = s x := fun x hx => by
    rw [e0]
    refine sets_out ?_
    simp only [bwcOwn, List.map_cons, List.map_nil, List.mem_cons, List.not_mem_nil, or_false, not_or] at hx ⊢
    grind
  have nd1 : [W.c 0 + 348, W.c 1 + 348, W.c 2 + 348, W.c 3 + 348, W.np].Nodup := by
    simp only [List.nodup_cons, List.mem_cons, not_or, List.not_mem_nil, not_false_eq_true, List.nodup_nil, and_true, or_false]; grind
  have wc : ∀ i < 4, s1 (W.c i + 348) = BitVec.ofNat 32 (b * 2 ^ (8 * i)) := by
    intro i hi
    rw [e0]
    refine sets_at nd1 ?_
    have : i = 0 ∨ i = 1 ∨ i = 2 ∨ i = 3 := by omega
    rcases this with rfl | rfl | rfl | rfl <;> simp
  have wn : s1 W.np = BitVec.ofNat 32 back := by rw [e0]; exact sets_at nd1 (by simp)
  have q1 : s1 W.sub = BitVec.ofNat 32 (p % 4) := by rw [v1 _ (by simp only [bwcOwn, List.mem_cons, List.not_mem_nil, or_false, not_or]; grind), a1]
  have q2 : s1 (W.wr + 344) = s (W.wr + 344) := v1 _ (by simp only [bwcOwn, List.mem_cons, List.not_mem_nil, or_false, not_or]; grind)
  have q3 : s1 (p / 4 * 4) = s (p / 4 * 4) := v1 _ (by simp only [bwcOwn, List.mem_cons, List.not_mem_nil, or_false, not_or]; grind)
  have key := Does.chain (L := L) (bwConst W) (fun l s' => (s' (W.wr + 348) = BitVec.ofNat 32 (b * 2 ^ (8 * (p % 4))) ∧ s' (W.wr + 328) = byteMask 1 (p % 4) ∨ p % 4 ∈ l) ∧
      Only [W.wr + 328, W.wr + 348] s1 s') (List.range 4) s1 ⟨Or.inr (by simp; omega), Only.refl _ _⟩ (by
    rintro i l s2 hi' ⟨g1, g2⟩
    have hi' : i < 4 := by simpa using hi'
    have es : s2 W.sub = BitVec.ofNat 32 (p % 4) := by rw [g2 _ (by simp only [List.mem_cons, List.not_mem_nil, or_false, not_or]; grind), q1]
    refine bwConst_does hW hC hi' (fun h => ?_) (fun h => ?_)
    · have h' : i = p % 4 := by
        rw [es] at h
        have := congrArg BitVec.toNat h
        rw [BitVec.toNat_ofNat, BitVec.toNat_ofNat] at this
        omega
      subst h'
      refine ⟨Or.inl ⟨?_, set_eq ..⟩, (g2.set (by simp) _).set (by simp) _⟩
      rw [set_ne (by omega), set_eq, g2 _ ?_, wc _ hi]
      have : p % 4 = 0 ∨ p % 4 = 1 ∨ p % 4 = 2 ∨ p % 4 = 3 := by omega
      simp only [List.mem_cons, List.not_mem_nil, or_false, not_or]
      rcases this with h | h | h | h <;> rw [h] <;> grind
    · refine ⟨?_, g2⟩
      rcases g1 with g1 | g1
      · exact Or.inl g1
      · rcases List.mem_cons.1 g1 with g1 | g1
        · exact absurd (by rw [es, g1]) h
        · exact Or.inr g1)
  have fin : Does L (bwConstBody W) s1 fun s' => ((∀ y, y ∉ bwcScr W → s' y = putByte s p (BitVec.ofNat 8 b) y) ∧ W.At s' (nextB p)) ∧ s' W.np = BitVec.ofNat 32 back := by
    refine Does.seq (key.mono ?_)
    rintro s2 ⟨g1, g2⟩
    obtain ⟨g1, g1'⟩ := g1.resolve_right (by simp)
    have f : ∀ y, y ≠ W.wr + 328 → y ≠ W.wr + 348 → s2 y = s1 y := fun y h1 h2 => g2 y (by simp only [List.mem_cons, List.not_mem_nil, or_false, not_or]; exact ⟨h1, h2⟩)
    refine (bwTail_does hW hp (by rw [f _ (by grind) (by grind), q1]) (by rw [f _ (by grind) (by grind), q2, a2]) g1' ho hc (by simp only [List.mem_cons, List.not_mem_nil, or_false, not_or]; grind)).mono ?_
    rintro s3 ⟨k1, k2, k3⟩
    refine ⟨⟨fun y hy => ?_, k2⟩, ?_⟩
    · simp only [bwcScr, List.mem_cons, List.mem_append, List.not_mem_nil, or_false, not_or] at hy
      by_cases hA : y = p / 4 * 4
      · subst hA
        have e8 : BitVec.ofNat 8 b = (BitVec.ofNat 32 b).setWidth 8 := by
          apply BitVec.eq_of_toNat_eq
          rw [BitVec.toNat_ofNat, BitVec.toNat_setWidth, BitVec.toNat_ofNat]; omega
        rw [k1, g1, f _ (by grind) (by grind), q3, putByte, set_eq, e8]
        refine modify_byte (Or.inl ?_)
        apply BitVec.eq_of_toNat_eq
        rw [BitVec.toNat_ofNat, BitVec.toNat_shiftLeft, BitVec.toNat_ofNat, Nat.shiftLeft_eq, Nat.mod_mul_mod]
      · rw [putByte_ne hA, k3 y (by simp only [List.mem_cons, List.not_mem_nil, or_false, not_or]; grind), f _ (by grind) (by grind), v1 _ (by rw [List.mem_cons, not_or]; exact ⟨hy.1, hy.2.1⟩)]
    · rw [k3 _ (by simp only [List.mem_cons, List.not_mem_nil, or_false, not_or]; grind), f _ (by grind) (by grind), wn]
  obtain ⟨s', x1, x2, x3⟩ := fin
  exact Does.prim ⟨hok, by rw [hs1]; exact x1, x3⟩ x2

end Eud.SC
