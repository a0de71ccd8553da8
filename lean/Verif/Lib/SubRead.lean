import Verif.Lib.SwitchAct
import Verif.Lib.ByteWrite
/-
C32, continued: reading bytes, words and flags at a variable sub-offset (memio/bwepdio.py:259-416).

A word at sub-offset 3 lies in two dwords.  It is read by two readers, the second of which adds to the result: for that time the
modifier of `copy_ret` is changed to `Add`.  So here the dword with this modifier is visible, and the rest of the trigger is pinned.
-/

namespace Eud.SC

/-! ## `read_end_common` with a visible modifier -/

/-- readtable.py:19-26, with the dwords of the trigger that the game looks at and that nothing changes (rawtriggerdef.py, action.py:83-103). -/
structure RendX (L : Layout) (rend : Nat) : Prop where
  cend : (rend + 16, 0) ∈ L.rest
  a0 : (rend + 352, 20) ∈ L.rest
  a1d : (rend + 372, (epd (rend + 348)).toNat) ∈ L.rest
  a1v : (rend + 376, 0) ∈ L.rest
  a1m : (rend + 380, 0x072D0000) ∈ L.rest
  a1f : (rend + 384, 20) ∈ L.rest
  aend : (rend + 412, 0) ∈ L.rest
  flag : (rend + 2372, 4) ∈ L.rest
  c4 : L.cell (rend + 4)
  c344 : L.cell (rend + 344)
  c348 : L.cell (rend + 348)
  c352 : L.cell (rend + 352)
  ev : EpdOK (rend + 348)

theorem ofNat_toNat32 (w : W) : BitVec.ofNat 32 w.toNat = w := by simp

/-- `read_end_common`: the value goes where the caller wants it, in the way that the modifier says, and is reset; control goes where the caller wants it. -/
theorem rendX_runs {L : Layout} {rend : Nat} (hX : RendX L rend) {s : Mem} {o : Nat} {md : Mod} (hm : s (rend + 352) = pmod md)
    (ho : s (rend + 344) = epd o) (he : EpdOK o) (hc : L.cell o) (o352 : o ≠ rend + 352) :
    L.Runs s rend ((s.set o (arith md (s o) (s (rend + 348)))).set (rend + 348) 0)
      (((s.set o (arith md (s o) (s (rend + 348)))).set (rend + 348) 0) (rend + 4)).toNat := by
  rintro m hok rfl
  rw [Layout.view_at hX.c352.2] at hm
  rw [Layout.view_at hX.c344.2] at ho
  have hd : dstOf (m (rend + 328 + 16)) 0 = some (.mem o) := by
    rw [Nat.add_assoc, show 328 + 16 = 344 from rfl, ho]; exact dstOf_epd he
  have pd : m (rend + 372 + 4) = epd (rend + 348) := by
    have h : ∀ w : W, (rend + 372, w.toNat) ∈ L.rest → m (rend + 372 + 4) = w := fun w hw => (hok.rest _ hw).trans (ofNat_toNat32 w)
    exact h _ hX.a1d
  have hat : SBlkAt m ⟨rend, ⟨[], [⟨none, md, none, some 0xFFFFFFFF⟩, sMem (rend + 348) .set 0]⟩, none, false⟩ := by
    refine ⟨by simp, by simp, fun i hi => absurd hi (by simp), fun _ => ?_, ?_, fun _ => ?_, fun _ => ?_, fun n hn => by cases hn⟩
    · exact hok.rest _ hX.cend
    · intro i hi
      match i, hi with
      | 0, _ =>
        refine ⟨fun d hd => (by cases hd), ?_⟩
        intro j hj w hw
        match j, hj with
        | 0, _ => simp [SAct.word] at hw
        | 1, _ => simp [SAct.word] at hw
        | 2, _ => simp [SAct.word] at hw
        | 3, _ => simp [SAct.word] at hw
        | 4, _ => simp [SAct.word] at hw
        | 5, _ => simp [SAct.word] at hw
        | 6, _ =>
          simp only [SAct.word, List.getElem_cons_zero] at hw
          cases hw
          rw [show rend + 328 + 32 * 0 + 4 * 6 = rend + 352 by omega, hm]
          cases md <;> rfl
        | 7, _ =>
          simp only [SAct.word, List.getElem_cons_zero] at hw
          cases hw
          rw [show rend + 328 + 32 * 0 + 4 * 7 = rend + 352 + 4 by omega]
          exact (hok.rest _ hX.a0).trans (show (20 : W) = (if True then (0 : BitVec 16) else 0x4353) ++ (20 : BitVec 16) by decide)
      | 1, _ =>
        refine ⟨fun d hd => ?_, ?_⟩
        · simp only [sMem, List.getElem_cons_succ, List.getElem_cons_zero] at hd
          cases hd
          exact hX.ev
        · intro j hj w hw
          match j, hj with
          | 0, _ => simp [SAct.word, sMem] at hw
          | 1, _ => simp [SAct.word, sMem] at hw
          | 2, _ => simp [SAct.word, sMem] at hw
          | 3, _ => simp [SAct.word, sMem] at hw
          | 4, _ =>
            have hw' : epd (rend + 348) = w := Option.some.inj hw
            rw [← hw', show rend + 328 + 32 * 1 + 4 * 4 = rend + 372 + 4 by omega]
            exact pd
          | 5, _ =>
            simp only [SAct.word, sMem, List.getElem_cons_succ, List.getElem_cons_zero] at hw
            cases hw
            exact hok.rest _ hX.a1v
          | 6, _ =>
            simp only [SAct.word, sMem, List.getElem_cons_succ, List.getElem_cons_zero] at hw
            cases hw
            rw [show rend + 328 + 32 * 1 + 4 * 6 = rend + 380 + 4 by omega]
            exact (hok.rest _ hX.a1m).trans (show (0x072D0000 : W) = Mod.set.code ++ (45 : BitVec 8) ++ (0 : BitVec 16) by decide)
          | 7, _ =>
            simp only [SAct.word, sMem, List.getElem_cons_succ, List.getElem_cons_zero] at hw
            cases hw
            rw [show rend + 328 + 32 * 1 + 4 * 7 = rend + 384 + 4 by omega]
            exact (hok.rest _ hX.a1f).trans (show (20 : W) = (if True then (0 : BitVec 16) else 0x4353) ++ (20 : BitVec 16) by decide)
    · exact hok.rest _ hX.aend
    · exact hok.rest _ hX.flag
  have hfoot : ∀ x, SBlk.foot ⟨rend, ⟨[], [⟨none, md, none, some 0xFFFFFFFF⟩, sMem (rend + 348) .set 0]⟩, none, false⟩ x →
      x ∈ [rend + 20, rend + 352, rend + 356, rend + 376, rend + 380, rend + 384, rend + 388, rend + 416, rend + 2376] := by
    rintro x (⟨i, hi, -⟩ | ⟨-, rfl⟩ | ⟨i, hi, j, hj, hw, rfl⟩ | ⟨-, rfl⟩ | ⟨-, rfl⟩ | ⟨h, -⟩)
    · simp at hi
    · simp
    · match i, hi with
      | 0, _ =>
        match j, hj with
        | 0, _ | 1, _ | 2, _ | 3, _ | 4, _ | 5, _ => simp [SAct.word] at hw
        | 6, _ => simp
        | 7, _ => simp
      | 1, _ =>
        match j, hj with
        | 0, _ | 1, _ | 2, _ | 3, _ => simp [SAct.word, sMem] at hw
        | 4, _ => simp
        | 5, _ => simp
        | 6, _ => simp
        | 7, _ => simp
    · simp
    · simp
    · cases h
  have pin : ∀ {a : Nat}, L.cell a → a ≠ rend + 352 → a ∉ [rend + 20, rend + 352, rend + 356, rend + 376, rend + 380, rend + 384, rend + 388, rend + 416, rend + 2376] := by
    intro a ha hn hmem
    have ne : ∀ r ∈ L.rest, a ≠ r.1 + 4 := fun r hr e => ha.2 (Or.inr (Or.inr (Or.inl ⟨r, hr, e⟩)))
    simp only [List.mem_cons, List.not_mem_nil, or_false] at hmem
    rcases hmem with h | h | h | h | h | h | h | h | h
    · exact ne _ hX.cend h
    · exact hn h
    · exact ne _ hX.a0 h
    · exact ne _ hX.a1d h
    · exact ne _ hX.a1v h
    · exact ne _ hX.a1m h
    · exact ne _ hX.a1f h
    · exact ne _ hX.aend h
    · exact ne _ hX.flag h
  have hres : SAct.res ⟨none, md, none, some 0xFFFFFFFF⟩ m (rend + 328) = ⟨.mem o, md, m (rend + 348), 0xFFFFFFFF⟩ := by
    simp only [SAct.res, Option.getD_none, Option.getD_some, hd, Nat.add_assoc, Nat.reduceAdd]
  have hap : (Act.apply ⟨.mem o, md, m (rend + 348), 0xFFFFFFFF⟩ m) = m.set o (arith md (m o) (m (rend + 348))) := by
    simp only [Act.apply, Dst.addr, modify_full]
  have hst := step_sym hat rfl ⟨trivial, fun _ => ⟨fun _ => by rw [hd]; rfl, fun hf => by
      rw [hres] at hf
      exact pin hc o352 (hfoot _ hf), sMem_ready _ _ _ _ _, fun hf => pin hX.c348 (by omega) (hfoot _ hf), trivial⟩⟩
  have hex : SBlk.exec ⟨rend, ⟨[], [⟨none, md, none, some 0xFFFFFFFF⟩, sMem (rend + 348) .set 0]⟩, none, false⟩ m =
      (m.set o (arith md (m o) (m (rend + 348)))).set (rend + 348) 0 := by
    simp only [SBlk.exec, condsS, if_true, runS, hres, hap, sMem_apply, arith]
  rw [hex] at hst
  have hv : L.view ((m.set o (arith md (m o) (m (rend + 348)))).set (rend + 348) 0) =
      ((L.view m).set o (arith md (L.view m o) (L.view m (rend + 348)))).set (rend + 348) 0 := by
    rw [Layout.view_set hX.c348.2, Layout.view_set hc.2, Layout.view_at hX.c348.2, Layout.view_at hc.2]
  refine ⟨_, Reaches.step ?_, (hok.set hc _).set hX.c348 _, hv⟩
  rw [hst, ← hv, Layout.view_at hX.c4.2]

/-- A reader, from its start until `read_end_common` has run: it goes on at `nxt`. -/
def RdX (L : Layout) (rend nxt o mask : Nat) (sh : Int) (md : Mod) (s s' : Mem) : Prop :=
  s (rend + 4) = BitVec.ofNat 32 nxt ∧ s (rend + 344) = epd o ∧ s (rend + 352) = pmod md ∧ ¬ L.priv (epdAddr (s cpAddr)) ∧ epdAddr (s cpAddr) ≠ rend + 348 ∧
    s' = (s.set o (arith md (s o) (s (rend + 348) + readVal (s (epdAddr (s cpAddr))) mask sh))).set (rend + 348) 0

theorem rdX_code {L : Layout} {rend nxt o t mask : Nat} {sh : Int} {md : Mod} (hX : RendX L rend) (hr : Reader L rend t mask sh) (hn : nxt < 2 ^ 32) (he : EpdOK o) (hc : L.cell o)
    (no : o ≠ rend + 352 ∧ o ≠ rend + 4 ∧ o ≠ rend + 348) {r b k : Nat} : Code L r b k (.prim (RdX L rend nxt o mask sh md)) t nxt := by
  refine .prim ?_
  rintro s s' ⟨h4, ho, hm, hp, hd, rfl⟩
  have h1 := hr s hp hd
  generalize s (rend + 348) + readVal (s (epdAddr (s cpAddr))) mask sh = v at h1 ⊢
  have h2 := rendX_runs hX (s := s.set (rend + 348) v) (o := o) (md := md) (by rw [set_ne (by omega)]; exact hm) (by rw [set_ne (by omega)]; exact ho) he hc no.1
  rw [set_eq, set_ne (show o ≠ rend + 348 from no.2.2)] at h2
  have e1 : (((s.set (rend + 348) v).set o (arith md (s o) v)).set (rend + 348) 0) = (s.set o (arith md (s o) v)).set (rend + 348) 0 := by
    funext x
    simp only [get_set]
    by_cases h1 : x = rend + 348
    · simp [h1]
    · simp [h1]
  rw [e1, set_ne (show rend + 4 ≠ rend + 348 by omega), set_ne (Ne.symm no.2.1), h4, BitVec.toNat_ofNat, Nat.mod_eq_of_lt hn] at h2
  exact h1.trans h2

/-! ## The functions -/

/-- The places used by a reader function: `read_end_common`, the cache of the current player, the parameter for the sub-offset, the result variable, the two
triggers of the last case, and the end of the function. -/
structure SubRd where
  rend : Nat
  cpc : Nat
  sv : Nat
  bv : Nat
  t2 : Nat
  t3 : Nat
  fend : Nat

namespace SubRd
variable (S : SubRd) (L : Layout)

/-- bwepdio.py:267-274, 327-334: the actions added to the first trigger of the switch.  The end of the switch is the trigger of the cache (bwepdio.py:304-305, 339-340). -/
def acts : List PA :=
  [aMem (S.rend + 4) .set (BitVec.ofNat 32 S.cpc), aMem (S.rend + 344) .set (epd (S.bv + 348)), aMem (S.cpc + 4) .set (BitVec.ofNat 32 S.fend),
    aMem (S.cpc + 344) .set (epd cpAddr)]

/-- bwepdio.py:275-278, 335-338: a field of `nb` bytes inside one dword. -/
def one (nb i : Nat) : Stmt :=
  .seq (.prim (RdX L S.rend S.cpc (S.bv + 348) ((2 ^ (8 * nb) - 1) * 2 ^ (8 * i)) (-(8 * i : Nat)) .set)) .brk

/-- bwepdio.py:282-302: a word at offset 3, the low byte first, then the high byte, which is added. -/
def two : Stmt :=
  .seq (.trig [] [aMem (S.rend + 4) .set (BitVec.ofNat 32 S.t2)])
    (.seq (.prim (RdX L S.rend S.t2 (S.bv + 348) ((2 ^ 8 - 1) * 2 ^ 24) (-(24 : Nat)) .set))
      (.seq (.trig [] [aMem cpAddr .add 1, aMemX (S.rend + 352) .set (8 <<< 24) 0xFF000000, aMem (S.rend + 4) .set (BitVec.ofNat 32 S.t3)])
        (.seq (.prim (RdX L S.rend S.t3 (S.bv + 348) 0xFF 8 .add))
          (.seq (.trig [] [aMemX (S.rend + 352) .set (7 <<< 24) 0xFF000000]) .brk))))

/-- The four cases. -/
def case (nb i : Nat) : Stmt := if i + nb ≤ 4 then S.one L nb i else S.two L

/-- bwepdio.py:259-307 `_wread_epd` (`nb = 2`) and bwepdio.py:319-342 `_bread_epd` (`nb = 1`): the parameters are the current player itself and `sv`; the
result is left in `bv`, which is the result variable of the function. -/
def body (nb : Nat) : Stmt :=
  .seq (.prim (SwARel L (fun s => s (S.sv + 348)) S.acts (cases0 4 (S.case L nb)))) (.prim (PvRel L S.cpc 0xFFFFFFFF S.fend))

/-- The dwords that the body may change. -/
def own : List Nat := [S.rend + 4, S.rend + 344, S.rend + 348, S.cpc + 4, S.cpc + 344, cpAddr, S.bv + 348]

structure Ok : Prop where
  X : RendX L S.rend
  pv : PVar L S.cpc
  cb : L.cell (S.bv + 348)
  eb : EpdOK (S.bv + 348)
  cp : L.cell cpAddr
  nd : (S.own ++ [S.rend + 352, S.cpc + 348, S.cpc + 352, S.sv + 348]).Nodup
  lt : S.fend < 2 ^ 32 ∧ S.cpc < 2 ^ 32 ∧ S.t2 < 2 ^ 32 ∧ S.t3 < 2 ^ 32

end SubRd

/-- Bytes `i`, .., `i + nb - 1` of two successive dwords, the low byte first. -/
def subVal (nb i : Nat) (w w2 : W) : W := BitVec.ofNat 32 ((w.toNat + 2 ^ 32 * w2.toNat) / 2 ^ (8 * i) % 2 ^ (8 * nb))

theorem subVal_one {nb i : Nat} (h : i + nb ≤ 4) (w w2 : W) : readVal w ((2 ^ (8 * nb) - 1) * 2 ^ (8 * i)) (-(8 * i : Nat)) = subVal nb i w w2 := by
  rw [C32_field, subVal]
  congr 1
  have e : (2 : Nat) ^ 32 = 2 ^ (8 * i) * 2 ^ (32 - 8 * i) := by rw [← Nat.pow_add]; congr 1; omega
  have e2 : (2 : Nat) ^ (32 - 8 * i) = 2 ^ (8 * nb) * 2 ^ (32 - 8 * i - 8 * nb) := by rw [← Nat.pow_add]; congr 1; omega
  rw [e, Nat.mul_assoc, Nat.add_mul_div_left _ _ (Nat.two_pow_pos _), e2, Nat.mul_assoc, Nat.add_mul_mod_self_left]

theorem subVal_two (w w2 : W) : readVal w ((2 ^ 8 - 1) * 2 ^ 24) (-(24 : Nat)) + readVal w2 0xFF 8 = subVal 2 3 w w2 := by
  have h1 : readVal w ((2 ^ 8 - 1) * 2 ^ 24) (-(24 : Nat)) = BitVec.ofNat 32 (w.toNat / 2 ^ 24 % 2 ^ 8) := C32_field w 8 3
  have h2 : readVal w2 0xFF 8 = BitVec.ofNat 32 (w2.toNat % 256 * 256) := by
    unfold readVal shl
    rw [show (0xFF : Nat) = 2 ^ 8 - 1 from rfl, Nat.and_two_pow_sub_one_eq_mod]
    rfl
  rw [h1, h2, ← BitVec.ofNat_add, subVal]
  congr 1
  have := w.isLt
  have := w2.isLt
  omega

theorem w_zero_add (x : W) : 0 + x = x := BitVec.zero_add x

theorem SubRd.one_wp {S : SubRd} {L : Layout} {nb i : Nat} (hS : S.Ok L) (hi : i + nb ≤ 4) {s : Mem} (h4 : s (S.rend + 4) = BitVec.ofNat 32 S.cpc)
    (h344 : s (S.rend + 344) = epd (S.bv + 348)) (h352 : s (S.rend + 352) = pmod .set) (h348 : s (S.rend + 348) = 0) {A : Nat} (hA : epdAddr (s cpAddr) = A)
    (hp : ¬ L.priv A) (hn : A ≠ S.rend + 348) (w2 : W) :
    Wp L (S.one L nb i) s fun o s' => o = .brk ∧ s' = (s.set (S.bv + 348) (subVal nb i (s A) w2)).set (S.rend + 348) 0 := by
  refine Wp.seqN (Does.prim ⟨h4, h344, h352, by rw [hA]; exact hp, by rw [hA]; exact hn, rfl⟩ (Wp.brk ⟨rfl, ?_⟩))
  rw [hA, h348, subVal_one hi (s A) w2, show arith Mod.set (s (S.bv + 348)) (0 + subVal nb i (s A) w2) = 0 + subVal nb i (s A) w2 from rfl, w_zero_add]

theorem SubRd.two_wp {S : SubRd} {L : Layout} (hS : S.Ok L) {s : Mem} 
    (h344 : s (S.rend + 344) = epd (S.bv + 348)) (h352 : s (S.rend + 352) = pmod .set) (h348 : s (S.rend + 348) = 0) {A A2 : Nat} (hA : epdAddr (s cpAddr) = A)
    (hA2 : epdAddr (s cpAddr + 1) = A2) (hp : ¬ L.priv A) (hp2 : ¬ L.priv A2) (hn : A ∉ S.own) (hn2 : A2 ∉ S.own ++ [S.rend + 352]) :
    Wp L (S.two L) s fun o s' => o = .brk ∧ s' (S.bv + 348) = subVal 2 3 (s A) (s A2) ∧ s' (S.rend + 348) = 0 ∧ s' (S.rend + 352) = pmod .set ∧ s' cpAddr = s cpAddr + 1 ∧
      Only [S.rend + 4, S.rend + 348, S.rend + 352, cpAddr, S.bv + 348] s s' := by
  have hnd := hS.nd
  simp only [SubRd.own, List.cons_append, List.nil_append, List.nodup_cons, List.mem_cons, List.not_mem_nil, or_false, not_or] at hnd hn hn2
  refine Wp.seqN (Does.trig (by simp) (fun _ => ⟨actsOk_mem hS.X.c4 trivial, ?_⟩) (by simp [holdsAll]))
  simp only [runPA, List.foldl_cons, List.foldl_nil, aMem_run]
  generalize e1 : Mem.set s (S.rend + 4) _ = s1
  have f1 : ∀ x, x ≠ S.rend + 4 → s1 x = s x := fun x hx => by rw [← e1, set_ne hx]
  have g1 : s1 (S.rend + 4) = BitVec.ofNat 32 S.t2 := by rw [← e1, set_eq]; rfl
  have c1 : epdAddr (s1 cpAddr) = A := by rw [f1 _ (by grind), hA]
  refine Wp.seqN (Does.prim (s' := _) ⟨g1, by rw [f1 _ (by grind), h344], by rw [f1 _ (by grind), h352], by rw [c1]; exact hp, by rw [c1]; grind, rfl⟩ ?_)
  rw [c1, f1 (S.rend + 348) (by grind), h348, f1 A (by grind)]
  generalize e2 : (Mem.set s1 (S.bv + 348) _).set (S.rend + 348) 0 = s2
  have f2 : ∀ x, x ≠ S.bv + 348 → x ≠ S.rend + 348 → s2 x = s1 x := fun x hx hy => by rw [← e2, set_ne hy, set_ne hx]
  have g2 : s2 (S.rend + 348) = 0 := by rw [← e2, set_eq]
  have b2 : s2 (S.bv + 348) = readVal (s A) ((2 ^ 8 - 1) * 2 ^ 24) (-(24 : Nat)) := by
    rw [← e2, set_ne (by grind), set_eq]
    exact w_zero_add _
  refine Wp.seqN (Does.trig (by simp) (fun _ => ⟨actsOk_mem hS.cp (actsOk_memX hS.X.c352 (actsOk_mem hS.X.c4 trivial)), ?_⟩) (by simp [holdsAll]))
  simp only [runPA, List.foldl_cons, List.foldl_nil, aMem_run, aMemX_run]
  generalize e3 : Mem.set _ (S.rend + 4) _ = s3
  have f3 : ∀ x, x ≠ cpAddr → x ≠ S.rend + 352 → x ≠ S.rend + 4 → s3 x = s2 x := fun x hx hy hz => by rw [← e3, set_ne hz, set_ne hy, set_ne hx]
  have g3 : s3 (S.rend + 4) = BitVec.ofNat 32 S.t3 := by rw [← e3, set_eq]; rfl
  have d3 : s3 cpAddr = s cpAddr + 1 := by
    rw [← e3, set_ne (by grind), set_ne (by grind), set_eq, f2 _ (by grind) (by grind), f1 _ (by grind)]; rfl
  have m3 : s3 (S.rend + 352) = pmod .add := by
    rw [← e3, set_ne (by grind), set_eq, set_ne (by grind), f2 _ (by grind) (by grind), f1 _ (by grind), h352]; decide
  have c3 : epdAddr (s3 cpAddr) = A2 := by rw [d3, hA2]
  refine Wp.seqN (Does.prim (s' := _) ⟨g3, by rw [f3 _ (by grind) (by grind) (by grind), f2 _ (by grind) (by grind), f1 _ (by grind), h344], m3, by rw [c3]; exact hp2, by rw [c3]; grind, rfl⟩ ?_)
  rw [c3, f3 (S.rend + 348) (by grind) (by grind) (by grind), g2, f3 A2 (by grind) (by grind) (by grind), f2 A2 (by grind) (by grind), f1 A2 (by grind),
    f3 (S.bv + 348) (by grind) (by grind) (by grind), b2]
  generalize e4 : (Mem.set s3 (S.bv + 348) _).set (S.rend + 348) 0 = s4
  have f4 : ∀ x, x ≠ S.bv + 348 → x ≠ S.rend + 348 → s4 x = s3 x := fun x hx hy => by rw [← e4, set_ne hy, set_ne hx]
  have g4 : s4 (S.rend + 348) = 0 := by rw [← e4, set_eq]
  have b4 : s4 (S.bv + 348) = subVal 2 3 (s A) (s A2) := by
    rw [← e4, set_ne (by grind), set_eq, ← subVal_two, w_zero_add]
    rfl
  refine Wp.seqN (Does.trig (by simp) (fun _ => ⟨actsOk_memX hS.X.c352 trivial, ?_⟩) (by simp [holdsAll]))
  simp only [runPA, List.foldl_cons, List.foldl_nil, aMemX_run]
  refine Wp.brk ⟨rfl, ?_, ?_, ?_, ?_, ?_⟩
  · rw [set_ne (by grind), b4]
  · rw [set_ne (by grind), g4]
  · rw [set_eq, f4 _ (by grind) (by grind), m3]; decide
  · rw [set_ne (by grind), f4 _ (by grind) (by grind), d3]
  · intro x hx
    simp only [List.mem_cons, List.not_mem_nil, or_false, not_or] at hx
    rw [set_ne (by grind), f4 _ (by grind) (by grind), f3 _ (by grind) (by grind) (by grind), f2 _ (by grind) (by grind), f1 _ (by grind)]

theorem SubRd.acts_run (S : SubRd) (s : Mem) : runPA S.acts s = (((s.set (S.rend + 4) (BitVec.ofNat 32 S.cpc)).set (S.rend + 344) (epd (S.bv + 348))).set (S.cpc + 4)
    (BitVec.ofNat 32 S.fend)).set (S.cpc + 344) (epd cpAddr) := by
  simp only [SubRd.acts, runPA, List.foldl_cons, List.foldl_nil, aMem_run, arith]

theorem SubRd.acts_ok {S : SubRd} {L : Layout} (hS : S.Ok L) (s : Mem) : ActsOk L S.acts s :=
  actsOk_mem hS.X.c4 (actsOk_mem hS.X.c344 (actsOk_mem hS.pv.nxt (actsOk_mem hS.pv.dst trivial)))

/-- The cache of the current player runs: the current player is restored, control is at the end of the function. -/
theorem SubRd.back_does {S : SubRd} {L : Layout} (hS : S.Ok L) {s : Mem} (h4 : s (S.cpc + 4) = BitVec.ofNat 32 S.fend) (h344 : s (S.cpc + 344) = epd cpAddr)
    (h352 : s (S.cpc + 352) = pmod .set) : Does L (.prim (PvRel L S.cpc 0xFFFFFFFF S.fend)) s fun s' => s' = s.set cpAddr (s (S.cpc + 348)) := by
  have hnd := hS.nd
  simp only [SubRd.own, List.cons_append, List.nil_append, List.nodup_cons, List.mem_cons, List.not_mem_nil, or_false, not_or] at hnd
  refine Does.prim ⟨.set, .mem cpAddr, h352, by rw [h344]; exact dstOf_epd (by decide), hS.cp, ?_, h4, rfl⟩ ?_
  · show cpAddr ≠ S.cpc + 4; grind
  · show s.set cpAddr (modify .set (s cpAddr) (s (S.cpc + 348)) (BitVec.ofNat 32 0xFFFFFFFF)) = _
    rw [show BitVec.ofNat 32 0xFFFFFFFF = (0xFFFFFFFF : W) from rfl, modify_full]; rfl

set_option maxHeartbeats 800000 in
theorem SubRd.body_does {S : SubRd} {L : Layout} {nb : Nat} (hS : S.Ok L) (hb : nb = 1 ∨ nb = 2) {s : Mem} (hi : (s (S.sv + 348)).toNat < 4)
    (h352 : s (S.rend + 352) = pmod .set) (h348 : s (S.rend + 348) = 0) (hc : s (S.cpc + 352) = pmod .set) {A A2 : Nat} (hA : epdAddr (s cpAddr) = A) (hA2 : epdAddr (s cpAddr + 1) = A2)
    (hp : ¬ L.priv A ∧ A ∉ S.own) (hp2 : 4 < (s (S.sv + 348)).toNat + nb → ¬ L.priv A2 ∧ A2 ∉ S.own ++ [S.rend + 352]) :
    Does L (S.body L nb) s fun s' => s' (S.bv + 348) = subVal nb (s (S.sv + 348)).toNat (s A) (s A2) ∧ s' cpAddr = s (S.cpc + 348) ∧ s' (S.rend + 348) = 0 ∧ s' (S.rend + 352) = pmod .set ∧
      Only (S.own ++ [S.rend + 352]) s s' := by
  generalize ei : (s (S.sv + 348)).toNat = i at *
  have hnd := hS.nd
  have h23 : ¬ i + nb ≤ 4 → nb = 2 ∧ i = 3 := by clear hp hp2; omega
  have hpA := hp.2
  simp only [SubRd.own, List.cons_append, List.nil_append, List.nodup_cons, List.mem_cons, List.not_mem_nil, or_false, not_or] at hnd hpA
  generalize e1 : runPA S.acts s = s1
  have f1 : ∀ x, x ≠ S.rend + 4 → x ≠ S.rend + 344 → x ≠ S.cpc + 4 → x ≠ S.cpc + 344 → s1 x = s x := fun x h1 h2 h3 h4 => by
    rw [← e1, S.acts_run, set_ne h4, set_ne h3, set_ne h2, set_ne h1]
  have g1 : s1 (S.rend + 4) = BitVec.ofNat 32 S.cpc := by rw [← e1, S.acts_run, set_ne (by grind), set_ne (by grind), set_ne (by grind), set_eq]
  have g2 : s1 (S.rend + 344) = epd (S.bv + 348) := by rw [← e1, S.acts_run, set_ne (by grind), set_ne (by grind), set_eq]
  have g3 : s1 (S.cpc + 4) = BitVec.ofNat 32 S.fend := by rw [← e1, S.acts_run, set_ne (by grind), set_eq]
  have g4 : s1 (S.cpc + 344) = epd cpAddr := by rw [← e1, S.acts_run, set_eq]
  have e352 : s1 (S.rend + 352) = pmod .set := by rw [f1 _ (by grind) (by grind) (by grind) (by grind), h352]
  have e348 : s1 (S.rend + 348) = 0 := by rw [f1 _ (by grind) (by grind) (by grind) (by grind), h348]
  have ecp : s1 cpAddr = s cpAddr := f1 _ (by grind) (by grind) (by grind) (by grind)
  have eA : s1 A = s A := f1 _ (by grind) (by grind) (by grind) (by grind)
  have key : Wp L (S.case L nb i) s1 fun o s' => o = .brk ∧ s' (S.bv + 348) = subVal nb i (s A) (s A2) ∧ s' (S.rend + 348) = 0 ∧ s' (S.rend + 352) = pmod .set ∧
      Only [S.rend + 4, S.rend + 348, S.rend + 352, cpAddr, S.bv + 348] s1 s' := by
    unfold SubRd.case
    split
    · rename_i hh
      refine Wp.mono (SubRd.one_wp hS hh g1 g2 e352 e348 (A := A) (by rw [ecp, hA]) hp.1 (by grind) (s A2)) ?_
      rintro o s' ⟨rfl, rfl⟩
      refine ⟨rfl, ?_, set_eq _ _ _, ?_, ?_⟩
      · rw [set_ne (by grind), set_eq, eA]
      · rw [set_ne (by grind), set_ne (by grind), e352]
      · intro x hx
        simp only [List.mem_cons, List.not_mem_nil, or_false, not_or] at hx
        rw [set_ne (by grind), set_ne (by grind)]
    · rename_i hh
      obtain ⟨p2, n2⟩ := hp2 (Nat.lt_of_not_le hh)
      have n2' := n2
      simp only [SubRd.own, List.cons_append, List.nil_append, List.mem_cons, List.not_mem_nil, or_false, not_or] at n2'
      have eA2 : s1 A2 = s A2 := f1 _ (by grind) (by grind) (by grind) (by grind)
      refine Wp.mono (SubRd.two_wp hS g2 e352 e348 (A := A) (A2 := A2) (by rw [ecp, hA]) (by rw [ecp, hA2]) hp.1 p2 hp.2 n2) ?_
      rintro o s' ⟨rfl, k1, k2, k3, k4, k5⟩
      obtain ⟨hnb, hi3⟩ := h23 hh
      subst hnb hi3
      exact ⟨rfl, by rw [k1, eA, eA2], k2, k3, k5⟩
  have hl : (cases0 4 (S.case L nb)).lookup (s (S.sv + 348)) = some (S.case L nb i) := by
    rw [cases0_lookup (by decide), ei, if_pos hi]
  refine Does.seq (Does.swA (S.acts_ok hS s) (by rw [e1]; exact f1 _ (by grind) (by grind) (by grind) (by grind)) hl (by
    rw [e1]
    refine Wp.mono key ?_
    rintro o s2 ⟨rfl, k1, k2, k3, k4⟩
    refine ⟨rfl, ?_⟩
    refine Does.mono (SubRd.back_does hS (by rw [k4 _ (by grind), g3]) (by rw [k4 _ (by grind), g4]) (by rw [k4 _ (by grind), f1 _ (by grind) (by grind) (by grind) (by grind), hc])) ?_
    rintro s' rfl
    refine ⟨?_, ?_, ?_, ?_, ?_⟩
    · rw [set_ne (by grind), k1]
    · rw [set_eq, k4 _ (by grind), f1 _ (by grind) (by grind) (by grind) (by grind)]
    · rw [set_ne (by grind), k2]
    · rw [set_ne (by grind), k3]
    · intro x hx
      simp only [SubRd.own, List.cons_append, List.nil_append, List.mem_cons, List.not_mem_nil, or_false, not_or] at hx
      rw [set_ne (by grind), k4 _ (by grind), f1 _ (by grind) (by grind) (by grind) (by grind)]))

/-- **C32, variable sub-offsets.**  `f_bread_epd(e, i)` (`nb = 1`) and `f_wread_epd(e, i)` (`nb = 2`) with an offset `i < 4` known only at run time give bytes `i`, .., `i + nb - 1`
of the memory from the dword `e` on, also where a word lies in two dwords, and the current player is restored from its cache. -/
theorem C32_sub {S : SubRd} {L : Layout} (hw : L.Wf) {nb nptr fstart back o : Nat} {e i : Src} {args : List (Nat × Src)} (hS : S.Ok L) (hb : nb = 1 ∨ nb = 2)
    (he : (cpAddr, e) ∈ args) (hi : (S.sv + 348, i) ∈ args)
    (hO : CallOk L nptr [(S.bv, o)] args (S.own ++ [S.rend + 352])) (hF : FuncCode L fstart S.fend nptr [S.bv] (S.body L nb)) (hback : back < 2 ^ 32) {s : Mem}
    (hi4 : (i.valM s).toNat < 4) (h352 : s (S.rend + 352) = pmod .set) (h348 : s (S.rend + 348) = 0) (hc : s (S.cpc + 352) = pmod .set)
    (hin : ∀ x ∈ [S.rend + 352, S.rend + 348, S.cpc + 348, S.cpc + 352], x ∉ nptr :: (S.bv + 344) :: args.map Prod.fst)
    (ho : cpAddr ≠ o ∧ cpAddr ≠ S.bv + 4 ∧ S.rend + 352 ≠ o ∧ S.rend + 352 ≠ S.bv + 4 ∧ S.rend + 348 ≠ o ∧ S.rend + 348 ≠ S.bv + 4)
    (hp : ¬ L.priv (epdAddr (e.valM s)) ∧ epdAddr (e.valM s) ∉ nptr :: (S.bv + 344) :: args.map Prod.fst ++ S.own)
    (hp2 : 4 < (i.valM s).toNat + nb → ¬ L.priv (epdAddr (e.valM s + 1)) ∧ epdAddr (e.valM s + 1) ∉ nptr :: (S.bv + 344) :: args.map Prod.fst ++ S.own ++ [S.rend + 352]) :
    Does L (.prim (CallRel L S.fend nptr back (S.body L nb) [(S.bv, o)] args)) s fun s' =>
      s' o = subVal nb (i.valM s).toNat (s (epdAddr (e.valM s))) (s (epdAddr (e.valM s + 1))) ∧ s' cpAddr = s (S.cpc + 348) ∧ s' (S.rend + 348) = 0 ∧ s' (S.rend + 352) = pmod .set ∧
        Only (callOnly nptr [(S.bv, o)] args (S.own ++ [S.rend + 352])) s s' := by
  generalize hA : epdAddr (e.valM s) = A at *
  generalize hA2 : epdAddr (e.valM s + 1) = A2 at *
  refine Does.mono (C31_does hw hO hF hback (Q := fun s2 => s2 (S.bv + 348) = subVal nb (i.valM s).toNat (s A) (s A2) ∧ s2 cpAddr = s (S.cpc + 348) ∧ s2 (S.rend + 348) = 0 ∧
    s2 (S.rend + 352) = pmod .set) ?_) ?_
  · intro s1 a1 o1
    have b1 : s1 cpAddr = e.valM s := a1 _ he
    have b2 : s1 (S.sv + 348) = i.valM s := a1 _ hi
    simp only [List.map_cons, List.map_nil, List.cons_append, List.nil_append] at o1
    have q1 : s1 A = s A := o1 _ fun h => hp.2 (List.mem_append_left _ h)
    have q2 : 4 < (i.valM s).toNat + nb → s1 A2 = s A2 := fun g => o1 _ fun h => (hp2 g).2 (List.mem_append_left _ (List.mem_append_left _ h))
    have hval : subVal nb (i.valM s).toNat (s A) (s1 A2) = subVal nb (i.valM s).toNat (s A) (s A2) := by
      by_cases g : 4 < (i.valM s).toNat + nb
      · rw [q2 g]
      · rw [← subVal_one (by omega) _ (s A2), ← subVal_one (by omega)]
    refine Wp.mono (Does.wp (SubRd.body_does hS hb (s := s1) (by rw [b2]; exact hi4) (by rw [o1 _ (hin _ (by simp)), h352]) (by rw [o1 _ (hin _ (by simp)), h348])
      (by rw [o1 _ (hin _ (by simp)), hc]) (A := A) (A2 := A2) (by rw [b1, hA]) (by rw [b1, hA2]) ⟨hp.1, fun h => hp.2 (List.mem_append_right _ h)⟩ (fun g => ?_))) ?_
    · rw [b2] at g
      refine ⟨(hp2 g).1, fun h => (hp2 g).2 ?_⟩
      rw [List.append_assoc]
      exact List.mem_append_right _ h
    · rintro o2 s2 ⟨rfl, k1, k2, k3, k4, k5⟩
      refine ⟨Or.inl rfl, ⟨?_, ?_, k3, k4⟩, k5⟩
      · rw [k1, b2, q1, hval]
      · rw [k2, o1 _ (hin _ (by simp))]
  · rintro s' ⟨⟨s2, ⟨k1, k2, k3, k4⟩, r1, r2⟩, o3⟩
    have r1' := r1 (S.bv, o) (by simp)
    simp only [List.map_cons, List.map_nil, List.cons_append, List.nil_append] at r2 r1'
    refine ⟨by rw [r1', k1], ?_, ?_, ?_, o3⟩
    · rw [r2 _ (by simp; exact ⟨ho.1, ho.2.1⟩), k2]
    · rw [r2 _ (by simp only [List.mem_cons, List.not_mem_nil, or_false, not_or]; exact ⟨ho.2.2.2.2.1, ho.2.2.2.2.2⟩), k3]
    · rw [r2 _ (by simp only [List.mem_cons, List.not_mem_nil, or_false, not_or]; exact ⟨ho.2.2.1, ho.2.2.2.1⟩), k4]

end Eud.SC
