import Verif.Ex.Kit
import Verif.Machine.Track
import Verif.Lib.SwitchAct
/-
Tools for examples: a switch over the labels 0 to 3 with a jump table.
-/

namespace Eud.SC

/-- The triggers of `EUDSwitch` on the dword `x` for the labels 0 to 3: the test of the other bits at `t0`, `t1`, the jump at `t2`, `t3`, `t4`. -/
def sw4Blks (x t0 t1 t2 t3 t4 tbl dflt : Nat) : List SBlk :=
  [⟨t0, ⟨[(cMemX x .exactly 0 0xFFFFFFFC).c], [sNext t0 t1]⟩, none, false⟩,
   ⟨t1, ⟨[], [sNext t0 dflt]⟩, some t2, false⟩,
   ⟨t2, ⟨[], [sNext t4 tbl]⟩, some t3, false⟩,
   ⟨t3, ⟨[(cMemX x .atLeast 1 (pow2 0)).c], [sMem (t4 + 4) .add (BitVec.ofNat 32 (20 * 2 ^ 0))]⟩, some t4, false⟩,
   ⟨t4, ⟨[(cMemX x .atLeast 1 (pow2 1)).c], [sMem (t4 + 4) .add (BitVec.ofNat 32 (20 * 2 ^ 1))]⟩, none, false⟩]

/-- Its jump table. -/
def sw4Tab (tbl c0 c1 c2 c3 : Nat) : List (Nat × Nat) := [c0, c1, c2, c3].zipIdx.flatMap fun p => [(tbl + 20 * p.2, p.1), (tbl + 20 * p.2 + 2372, 8)]

theorem sw4_runs {L : Layout} (hw : L.Wf) {x t0 t1 t2 t3 t4 tbl dflt c0 c1 c2 c3 : Nat} (hx : L.cell x) (hb : ∀ b ∈ sw4Blks x t0 t1 t2 t3 t4 tbl dflt, b ∈ L.P.blks)
    (hr : (t0, dflt) ∈ L.rest) (ht : ∀ r ∈ sw4Tab tbl c0 c1 c2 c3, r ∈ L.rest) (hlt : tbl + 80 < 2 ^ 32) (h1 : t1 < 2 ^ 32) (hid : t4 + 4 ∈ L.hid) (dat : L.P.data (t4 + 4))
    (hm : ∀ v ∈ L.P.vars, t4 + 4 ≠ v + 328) (hq : ∀ r ∈ L.rest, r.1 ≠ t4) (s : Mem) :
    L.Runs s t0 s (caseOf [(0, c0), (1, c1), (2, c2), (3, c3)] dflt (s x)) := by
  have e0 : keyAnd [(0, c0), (1, c1), (2, c2), (3, c3)] = (0 : W) := by simp [keyAnd]
  have e1 : keyOr [(0, c0), (1, c1), (2, c2), (3, c3)] = (3 : W) := by simp [keyOr]
  have e2 : keyXor [(0, c0), (1, c1), (2, c2), (3, c3)] = (3 : W) := by simp only [keyXor, e0, e1]; rfl
  have e3 : invMask [(0, c0), (1, c1), (2, c2), (3, c3)] 0xFFFFFFFF = (0xFFFFFFFC : W) := by simp only [invMask, e0, e1]; rfl
  have e4 : bitPlaces 3 = [0, 1] := by decide +kernel
  have e5 : jumpTargets [(0, c0), (1, c1), (2, c2), (3, c3)] dflt = [c0, c1, c2, c3] := by
    rw [jumpTargets, e2, e4, keyList_eq (p := 0) (by simp [Asc]), e0]
    rfl
  have hj : JumpCode L x 0xFFFFFFFF [(0, c0), (1, c1), (2, c2), (3, c3)] dflt t0 := by
    refine ⟨t2, t3, t4, tbl, ?_, hb _ (by simp [sw4Blks]), ?_, ?_, ?_, hid, dat, hm, hq⟩
    · rw [e3, if_pos (by decide), e0]
      exact .last t0 t1 _ [] (by simp) (by simp) (placedCB_spec rfl) trivial ⟨hb _ (by simp [sw4Blks]), hb _ (by simp [sw4Blks]), hr, h1⟩
    · rw [e2, e4]
      exact .more (n := t4) (hb _ (by simp [sw4Blks])) (.last (hb _ (by simp [sw4Blks])))
    · rw [e5]
      intro i u hi
      have hz : (u, i) ∈ [c0, c1, c2, c3].zipIdx := List.mem_zipIdx_iff_getElem?.2 hi
      have : ∀ q ∈ [(tbl + 20 * i, u), (tbl + 20 * i + 2372, 8)], q ∈ sw4Tab tbl c0 c1 c2 c3 := fun q hq => List.mem_flatMap.2 ⟨_, hz, hq⟩
      exact ⟨ht _ (this _ (by simp)), ht _ (this _ (by simp))⟩
    · rw [e5]; simpa using hlt
  have := C26_jump hw hx (by simp) (by simp) hj s
  rwa [and_full] at this

/-- The same with further actions in the trigger that sets the start of the jump table. -/
def sw4ABlks (x t0 t1 t2 t3 t4 tbl dflt : Nat) (acts : List PA) : List SBlk :=
  [⟨t0, ⟨[(cMemX x .exactly 0 0xFFFFFFFC).c], [sNext t0 t1]⟩, none, false⟩,
   ⟨t1, ⟨[], [sNext t0 dflt]⟩, some t2, false⟩,
   ⟨t2, ⟨[], sNext t4 tbl :: acts.map PA.a⟩, some t3, false⟩,
   ⟨t3, ⟨[(cMemX x .atLeast 1 (pow2 0)).c], [sMem (t4 + 4) .add (BitVec.ofNat 32 (20 * 2 ^ 0))]⟩, some t4, false⟩,
   ⟨t4, ⟨[(cMemX x .atLeast 1 (pow2 1)).c], [sMem (t4 + 4) .add (BitVec.ofNat 32 (20 * 2 ^ 1))]⟩, none, false⟩]

theorem sw4A_runs {L : Layout} (hw : L.Wf) {x t0 t1 t2 t3 t4 tbl dflt c0 c1 c2 c3 : Nat} {acts : List PA} (hx : L.cell x) (hb : ∀ b ∈ sw4ABlks x t0 t1 t2 t3 t4 tbl dflt acts, b ∈ L.P.blks)
    (hpl : PlacedA (t2 + 328 + 32) acts) (hr : (t0, dflt) ∈ L.rest) (ht : ∀ r ∈ sw4Tab tbl c0 c1 c2 c3, r ∈ L.rest) (hlt : tbl + 80 < 2 ^ 32) (h1 : t1 < 2 ^ 32) (hid : t4 + 4 ∈ L.hid)
    (dat : L.P.data (t4 + 4)) (hm : ∀ v ∈ L.P.vars, t4 + 4 ≠ v + 328) (hq : ∀ r ∈ L.rest, r.1 ≠ t4) (s : Mem) (ha : ActsOk L acts s) (hsx : runPA acts s x = s x) :
    L.Runs s t0 (if (s x).toNat < 4 then runPA acts s else s) (caseOf [(0, c0), (1, c1), (2, c2), (3, c3)] dflt (s x)) := by
  have e0 : keyAnd [(0, c0), (1, c1), (2, c2), (3, c3)] = (0 : W) := by simp [keyAnd]
  have e1 : keyOr [(0, c0), (1, c1), (2, c2), (3, c3)] = (3 : W) := by simp [keyOr]
  have e2 : keyXor [(0, c0), (1, c1), (2, c2), (3, c3)] = (3 : W) := by simp only [keyXor, e0, e1]; rfl
  have e3 : invMask [(0, c0), (1, c1), (2, c2), (3, c3)] 0xFFFFFFFF = (0xFFFFFFFC : W) := by simp only [invMask, e0, e1]; rfl
  have e4 : bitPlaces 3 = [0, 1] := by decide +kernel
  have e5 : jumpTargets [(0, c0), (1, c1), (2, c2), (3, c3)] dflt = [c0, c1, c2, c3] := by
    rw [jumpTargets, e2, e4, keyList_eq (p := 0) (by simp [Asc]), e0]
    rfl
  have hj : JumpCodeA L x 0xFFFFFFFF acts [(0, c0), (1, c1), (2, c2), (3, c3)] dflt t0 := by
    refine ⟨t2, t3, t4, tbl, ?_, hb _ (by simp [sw4ABlks]), hpl, ?_, ?_, ?_, hid, dat, hm, hq⟩
    · rw [e3, if_pos (by decide), e0]
      exact .last t0 t1 _ [] (by simp) (by simp) (placedCB_spec rfl) trivial ⟨hb _ (by simp [sw4ABlks]), hb _ (by simp [sw4ABlks]), hr, h1⟩
    · rw [e2, e4]
      exact .more (n := t4) (hb _ (by simp [sw4ABlks])) (.last (hb _ (by simp [sw4ABlks])))
    · rw [e5]
      intro i u hi
      have hz : (u, i) ∈ [c0, c1, c2, c3].zipIdx := List.mem_zipIdx_iff_getElem?.2 hi
      have : ∀ q ∈ [(tbl + 20 * i, u), (tbl + 20 * i + 2372, 8)], q ∈ sw4Tab tbl c0 c1 c2 c3 := fun q hq => List.mem_flatMap.2 ⟨_, hz, hq⟩
      exact ⟨ht _ (this _ (by simp)), ht _ (this _ (by simp))⟩
    · rw [e5]; simpa using hlt
  have := C26_jump_acts hw hx (by simp) (by simp) hj ha hsx
  rw [and_full, e3, e0] at this
  have hk : (s x &&& 0xFFFFFFFC = 0) ↔ (s x).toNat < 4 := by
    constructor
    · intro h
      have h2 : s x &&& 3 = s x := by
        have : s x = (s x &&& 0xFFFFFFFC) ||| (s x &&& 3) := by
          rw [← BitVec.and_or_distrib_left, show (0xFFFFFFFC ||| 3 : W) = 0xFFFFFFFF by decide, and_full]
        rw [h] at this
        rw [show (0 : W) ||| (s x &&& 3) = s x &&& 3 by simp] at this
        exact this.symm
      have h3 := congrArg BitVec.toNat h2
      rw [BitVec.toNat_and] at h3
      have : (s x).toNat &&& (3 : W).toNat ≤ 3 := Nat.and_le_right
      omega
    · intro h
      apply BitVec.eq_of_toNat_eq
      rw [BitVec.toNat_and]
      generalize (s x).toNat = n at h
      have : n = 0 ∨ n = 1 ∨ n = 2 ∨ n = 3 := by omega
      rcases this with rfl | rfl | rfl | rfl <;> rfl
  simpa only [hk] using this

end Eud.SC
