import Verif.Lib.ListLoop
/-
C60: `EUDLoopUnit2` (listloop.py:199-232), which goes over the 1700 units by moving the player field of a condition and the values of two actions.
-/

namespace Eud.SC

/-- A condition at `p` that compares with 0 the dword whose EPD is in its own player field (listloop.py:204, 206 `MemoryXEPD(0, Exactly, 0, mask)`; without a mask all bits count). -/
def cDead (mask : W) (p : Nat) : PC := ⟨.check none .exactly (some 0) (some mask), some p⟩

theorem cDead_spec {L : Layout} {mask : W} {p d : Nat} {s : Mem} (h : s (p + 4) = epd d) (he : EpdOK d) (hd : ¬ L.priv d) :
    (cDead mask p).Ok L s ∧ (cDead mask p).holds s = decide (s d &&& mask = 0) := by
  have hr : (cDead mask p).c.res s ((cDead mask p).pos.getD 0) = .check (.mem d) .exactly 0 mask := by
    simp only [cDead, SCnd.res, Option.getD_some, Option.getD_none, h, dstOf_epd he]
  refine ⟨⟨?_, ?_⟩, ?_⟩
  · simp only [cDead, SCnd.Ready, Option.getD_some, h, dstOf_epd he]
    simp
  · rw [hr]
    exact hd
  · unfold PC.holds
    rw [hr]
    rfl

/-- The loop: its two variables, where its condition is, where the actions that set the variables are, and whether the plugin `unlimiter` is on. -/
structure Un2 where
  ptr : Nat
  epd : Nat
  cd : Nat
  sp : Nat
  se : Nat
  unlim : Bool

namespace Un2
variable (F : Un2)

/-- listloop.py:203-206: which dword of a unit tells whether it is there, and which bits. -/
def off : Nat := if F.unlim then 0x4C else 0x0C
def mask : W := if F.unlim then 0xFF00 else 0xFFFFFFFF

/-- listloop.py:211-217 -/
def init : Stmt := .trig [] [aMem (F.ptr + 348) .set 0x59CCA8, aMem (F.sp + 20) .set 0x59CCA8, aMem (F.epd + 348) .set (Eud.SC.epd 0x59CCA8), aMem (F.cd + 4) .set (Eud.SC.epd 0x59CCA8 + BitVec.ofNat 32 (F.off / 4)), aMem (F.se + 20) .set (Eud.SC.epd 0x59CCA8)]

/-- listloop.py:218 -/
def stop : PC := cMem (F.ptr + 348) .atLeast (BitVec.ofNat 32 (0x59CCA8 + 336 * 1699 + 1))

/-- listloop.py:223-231 -/
def next : Stmt := .trig [] [aMem (F.cd + 4) .add 84, aMem (F.sp + 20) .add 336, aMemV (F.ptr + 348) .set F.sp, aMem (F.se + 20) .add 84, aMemV (F.epd + 348) .set F.se]

/-- listloop.py:199-232 `EUDLoopUnit2`; `EUDContinueIf` is a conditional jump to the continue point. -/
def loop (body : Stmt) : Stmt := .seq F.init (.loop true .skip [F.stop] (.seq (.ite .skip [cDead F.mask F.cd] .cont .skip) body) F.next)

/-- The dwords that steer the loop and that nothing else may write. -/
def own : List Nat := [F.cd + 4, F.sp + 20, F.se + 20]
/-- The dwords that the loop writes. -/
def scr : List Nat := (F.ptr + 348) :: (F.epd + 348) :: F.own

/-- Spec: the address of the unit `i`, and whether it is there. -/
def unitAt (i : Nat) : Nat := 0x59CCA8 + 336 * i
def Alive (s : Mem) (i : Nat) : Prop := s (unitAt i + F.off) &&& F.mask ≠ 0

/-- The dwords are apart from each other and from the units. -/
structure Ok (L : Layout) : Prop where
  c : ∀ x ∈ F.scr, L.cell x
  nd : F.scr.Nodup
  rd : ∀ i < 1700, ¬ L.priv (unitAt i + F.off) ∧ unitAt i + F.off ∉ F.scr

/-- The state of the loop at the unit `i`. -/
structure At (i : Nat) (s : Mem) : Prop where
  cd : s (F.cd + 4) = Eud.SC.epd (unitAt i + F.off)
  sp : s (F.sp + 20) = BitVec.ofNat 32 (unitAt i)
  se : s (F.se + 20) = Eud.SC.epd (unitAt i)

theorem epd_next (x : Nat) : Eud.SC.epd x + 84 = Eud.SC.epd (x + 336) := by
  unfold Eud.SC.epd
  apply BitVec.eq_of_toNat_eq
  simp only [BitVec.toNat_add, BitVec.toNat_ofInt]
  have : (84 : W).toNat = 84 := rfl
  rw [this]
  omega

theorem epd_off (x : Nat) {k : Nat} (h : k % 4 = 0) : Eud.SC.epd x + BitVec.ofNat 32 (k / 4) = Eud.SC.epd (x + k) := by
  unfold Eud.SC.epd
  apply BitVec.eq_of_toNat_eq
  simp only [BitVec.toNat_add, BitVec.toNat_ofInt, BitVec.toNat_ofNat]
  omega

theorem off4 : F.off = 0x4C ∨ F.off = 0x0C := by unfold off; cases F.unlim <;> simp

theorem init_does {F : Un2} {L : Layout} (hO : F.Ok L) (s : Mem) : Does L F.init s fun s' => F.At 0 s' ∧ s' (F.ptr + 348) = BitVec.ofNat 32 (unitAt 0) ∧ s' (F.epd + 348) = Eud.SC.epd (unitAt 0) ∧ Only F.scr s s' := by
  have hc := hO.c
  have nd := hO.nd
  simp only [scr, own, List.mem_cons, List.not_mem_nil, or_false, forall_eq_or_imp, forall_eq] at hc
  simp only [scr, own, List.nodup_cons, List.mem_cons, List.not_mem_nil, or_false, not_or, List.nodup_nil, and_true, not_false_eq_true] at nd
  obtain ⟨c1, c2, c3, c4, c5⟩ := hc
  obtain ⟨⟨n1, n2, n3, n4⟩, ⟨n5, n6, n7⟩, ⟨n8, n9⟩, n10⟩ := nd
  refine Does.trig (by simp) (fun _ => ⟨actsOk_mem c1 (actsOk_mem c4 (actsOk_mem c2 (actsOk_mem c3 (actsOk_mem c5 trivial)))), ?_⟩) (fun h => by cases h)
  have h4 : F.off % 4 = 0 := by rcases F.off4 with h | h <;> rw [h]
  simp only [runPA_cons, runPA_nil, aMem_run, arith, epd_off _ h4]
  refine ⟨⟨?_, ?_, ?_⟩, ?_, ?_, ?_⟩
  · rw [set_ne n9, set_eq]; rfl
  · rw [set_ne n10, set_ne (Ne.symm n8), set_ne (Ne.symm n6), set_eq]; rfl
  · rw [set_eq]; rfl
  · rw [set_ne n4, set_ne n2, set_ne n1, set_ne n3, set_eq]; rfl
  · rw [set_ne n7, set_ne n5, set_eq]; rfl
  · exact ((((Only.refl _ _).set (by simp [scr]) _).set (by simp [scr, own]) _).set (by simp [scr]) _).set (by simp [scr, own]) _ |>.set (by simp [scr, own]) _

theorem next_does {F : Un2} {L : Layout} (hO : F.Ok L) {i : Nat} (hi : i < 1700) {s : Mem} (hs : F.At i s) : Does L F.next s fun s' => F.At (i + 1) s' ∧ s' (F.ptr + 348) = BitVec.ofNat 32 (unitAt (i + 1)) ∧ s' (F.epd + 348) = Eud.SC.epd (unitAt (i + 1)) ∧ Only F.scr s s' := by
  have hc := hO.c
  have nd := hO.nd
  simp only [scr, own, List.mem_cons, List.not_mem_nil, or_false, forall_eq_or_imp, forall_eq] at hc
  simp only [scr, own, List.nodup_cons, List.mem_cons, List.not_mem_nil, or_false, not_or, List.nodup_nil, and_true, not_false_eq_true] at nd
  obtain ⟨c1, c2, c3, c4, c5⟩ := hc
  obtain ⟨⟨n1, n2, n3, n4⟩, ⟨n5, n6, n7⟩, ⟨n8, n9⟩, n10⟩ := nd
  refine Does.trig (by simp) (fun _ => ⟨actsOk_mem c3 (actsOk_mem c4 (actsOk_memV c1 (actsOk_mem c5 (actsOk_memV c2 trivial)))), ?_⟩) (fun h => by cases h)
  have u : unitAt (i + 1) = unitAt i + 336 := by unfold unitAt; omega
  have e1 : s (F.cd + 4) + 84 = Eud.SC.epd (unitAt (i + 1) + F.off) := by rw [hs.cd, epd_next, u, Nat.add_right_comm]
  have e2 : s (F.sp + 20) + 336 = BitVec.ofNat 32 (unitAt (i + 1)) := by rw [hs.sp, u, BitVec.ofNat_add]; rfl
  have e3 : s (F.se + 20) + 84 = Eud.SC.epd (unitAt (i + 1)) := by rw [hs.se, epd_next, u]
  simp only [runPA_cons, runPA_nil, aMem_run, aMemV_run, arith, set_eq, set_ne (Ne.symm n8), set_ne (Ne.symm n4), set_ne (Ne.symm n9), set_ne (Ne.symm n10), e1, e2, e3]
  refine ⟨⟨?_, ?_, ?_⟩, ?_, ?_, ?_⟩
  · rw [set_ne (Ne.symm n5), set_ne n9, set_ne (Ne.symm n2), set_ne n8, set_eq]
  · rw [set_ne (Ne.symm n6), set_ne n10, set_ne (Ne.symm n3), set_eq]
  · rw [set_ne (Ne.symm n7), set_eq]
  · rw [set_ne n1, set_ne n4, set_eq]
  · trivial
  · exact ((((Only.refl _ _).set (by simp [scr, own]) _).set (by simp [scr, own]) _).set (by simp [scr]) _).set (by simp [scr, own]) _ |>.set (by simp [scr]) _

end Un2

/-- **C60 (`EUDLoopUnit2`).** The units are taken in the order of their addresses: at the unit `i` the body runs if the unit is there at that moment, with the pointer and the EPD of
the unit in the variables, otherwise nothing happens.  So an assertion `I` that is kept in both cases goes from 0 to 1700.  The body may write the two variables; it must leave alone the
three dwords that steer the loop.  `EUDContinue` goes on with the next unit, `EUDBreak` and `EUDReturn` leave the loop. -/
theorem C60_unit2 {L : Layout} {F : Un2} (hO : F.Ok L) {body : Stmt} {I : Nat → Mem → Prop} (hI : ∀ i s s', Only F.scr s s' → I i s → I i s') {Q : Out → Mem → Prop}
    (hb : ∀ i s, i < 1700 → I i s → F.Alive s i → s (F.ptr + 348) = BitVec.ofNat 32 (Un2.unitAt i) → s (F.epd + 348) = epd (Un2.unitAt i) → Wp L body s fun o s2 => match o with
      | .brk => Q .nrm s2
      | .ret => Q .ret s2
      | _ => I (i + 1) s2 ∧ ∀ x ∈ F.own, s2 x = s x)
    (hd : ∀ i s, i < 1700 → I i s → ¬ F.Alive s i → I (i + 1) s) (hQ : ∀ s, I 1700 s → Q .nrm s) {s : Mem} (h0 : I 0 s) : Wp L (F.loop body) s Q := by
  refine Wp.seqN (Does.mono (Un2.init_does hO s) ?_)
  rintro s1 ⟨a1, p1, e1, o1⟩
  refine Wp.loop (fun n s => ∃ i, n + i = 1700 ∧ F.At i s ∧ s (F.ptr + 348) = BitVec.ofNat 32 (Un2.unitAt i) ∧ s (F.epd + 348) = epd (Un2.unitAt i) ∧ I i s) ?_
    ⟨0, rfl, a1, p1, e1, hI _ _ _ o1 h0⟩
  rintro n s ⟨i, hn, ha, hp, he, hi⟩
  have hc1 := hO.c (F.ptr + 348) (by simp [Un2.scr])
  have hst : holdsAll s [F.stop] = decide (i = 1700) := by
    simp only [holdsAll_cons, holdsAll_nil, Bool.and_true, Un2.stop, cMem_holds, compare, hp, BitVec.le_def, ge_iff_le, BitVec.toNat_ofNat, Un2.unitAt]
    rw [decide_eq_decide, Nat.mod_eq_of_lt (show 0x59CCA8 + 336 * i < 2 ^ 32 by omega), Nat.mod_eq_of_lt (show 0x59CCA8 + 336 * 1699 + 1 < 2 ^ 32 by omega)]
    omega
  refine Does.skip ⟨by simp only [List.mem_singleton, forall_eq]; exact cMem_ok hc1 _ _ _, fun h => ?_, fun h => ?_⟩
  · rw [hst, decide_eq_true_eq] at h
    subst h
    exact hQ _ hi
  · rw [hst, Bool.not_true, decide_eq_false_iff_not] at h
    have hlt : i < 1700 := by omega
    have step : ∀ {s2 : Mem}, I (i + 1) s2 → (∀ x ∈ F.own, s2 x = s x) → Does L F.next s2 fun s3 => ∃ m, m < n ∧ ∃ i, m + i = 1700 ∧ F.At i s3 ∧ s3 (F.ptr + 348) = BitVec.ofNat 32 (Un2.unitAt i) ∧ s3 (F.epd + 348) = epd (Un2.unitAt i) ∧ I i s3 := by
      intro s2 i2 k2
      refine Does.mono (Un2.next_does hO hlt ⟨(k2 _ (by simp [Un2.own])).trans ha.cd, (k2 _ (by simp [Un2.own])).trans ha.sp, (k2 _ (by simp [Un2.own])).trans ha.se⟩) ?_
      rintro s3 ⟨a3, p3, e3, o3⟩
      exact ⟨n - 1, by omega, i + 1, by omega, a3, p3, e3, hI _ _ _ o3 i2⟩
    have hoff : EpdOK (Un2.unitAt i + F.off) := by
      unfold EpdOK Un2.unitAt deathTable
      rcases F.off4 with h | h <;> rw [h] <;> omega
    obtain ⟨d1, d2⟩ := cDead_spec (mask := F.mask) ha.cd hoff (hO.rd i hlt).1
    refine Wp.seq (Wp.ite0 (by simpa using d1) (fun h => Wp.cont ?_) (fun h => ⟨_, _, .skip _, ?_⟩))
    · simp only [holdsAll_cons, holdsAll_nil, Bool.and_true, d2, decide_eq_true_eq] at h
      rw [if_neg (by simp)]
      exact step (hd i s hlt hi fun ha => ha h) fun _ _ => rfl
    · simp only [holdsAll_cons, holdsAll_nil, Bool.and_true, d2, decide_eq_false_iff_not] at h
      refine Eq.mpr (if_pos rfl) (Wp.mono (hb i s hlt hi h hp he) ?_)
      intro o s2 h2
      cases o with
      | brk => exact h2
      | ret => exact h2
      | nrm => exact step h2.1 h2.2
      | cont => exact step h2.1 h2.2

end Eud.SC
