import Verif.Machine.Wp
import Verif.Machine.Queue
/-
Code whose next pointers and destinations are themselves visible dwords.

The memory routines (memio/*.py) keep the next pointer of a shared trigger, and next pointer and destination of the variable that
caches the current player, in plain sight: every user sets them before going there.  Here such dwords are ordinary cells, and the
remaining dwords of such a variable are pinned by `Layout.rest`.
-/

namespace Eud.SC

/-- **A trigger** whose next pointer is a visible dword. -/
theorem Layout.Runs.dyn {L : Layout} (hw : L.Wf) {t : Nat} {cs : List PC} {as : List PA}
    (hb : (⟨t, ⟨cs.map PC.c, as.map PA.a⟩, none, false⟩ : SBlk) ∈ L.P.blks) (h4 : ¬ L.priv (t + 4)) (hpc : PlacedC (t + 8) cs)
    (hpa : PlacedA (t + 328) as) {s : Mem} (hc : ∀ p ∈ cs, p.Ok L s) (ha : holdsAll s cs = true → ActsOk L as s) :
    L.Runs s t (if holdsAll s cs then runPA as s else s) ((if holdsAll s cs then runPA as s else s) (t + 4)).toNat := by
  rintro m hm rfl
  have hbl := hm.prog.blks _ hb
  obtain ⟨e1, e2⟩ := hpc.spec (L := L) (s := L.view m)
  obtain ⟨f1, f2⟩ := hpa.spec (L := L) (s := L.view m)
  obtain ⟨c1, c2⟩ := Layout.cnds_run hw.cp (cs.map PC.c) (t + 8) m (fun o ho' => by
    rw [Nat.add_assoc]; exact hw.blk _ hb _ (by omega) (by have := hbl.cl; simp only at this; omega)) (e2 hc)
  have ha' : holdsAll (L.view m) cs = true → _ := fun h =>
    Layout.acts_run hw.cp (as.map PA.a) (t + 328) m hm (fun o ho' => by
      rw [Nat.add_assoc]; exact hw.blk _ hb _ (by omega) (by have := hbl.al; simp only at this; omega)) (f2 (ha h))
  have hs := hm.prog.step hb rfl c1 (fun h => (ha' (e1 ▸ c2 ▸ h)).1)
  simp only [SBlk.exec] at hs
  rw [c2, e1] at hs
  cases hh : holdsAll (L.view m) cs with
  | true =>
    rw [hh] at hs
    simp only [if_true] at hs ⊢
    obtain ⟨-, g1, g2⟩ := ha' hh
    refine ⟨_, Reaches.step ?_, g1, g2.trans f1⟩
    rw [hs.1, ← f1, ← g2, Layout.view_at h4]
  | false =>
    rw [hh] at hs
    simp only [Bool.false_eq_true, if_false] at hs ⊢
    refine ⟨m, Reaches.step ?_, hm, rfl⟩
    rw [hs.1, Layout.view_at h4]

/-- A variable whose next pointer, destination and value are visible dwords: the dwords of its trigger that the game looks at and that
nothing changes (offsets and contents: core/variable/eudxv.py and vbuf.py).  The mask is `M`, full if not given; the dword with the modifier is visible. -/
structure PVar (L : Layout) (v : Nat) (M : Nat := 0xFFFFFFFF) : Prop where
  cend : (v + 16, 0) ∈ L.rest
  mask : (v + 324, M) ∈ L.rest
  eudx : (v + 352, 0x43530000) ∈ L.rest
  aend : (v + 380, 0) ∈ L.rest
  flag : (v + 2372, 4) ∈ L.rest
  nxt : L.cell (v + 4)
  dst : L.cell (v + 344)
  val : L.cell (v + 348)
  md : L.cell (v + 352)

/-- The dword of a variable that holds its modifier, with unit 0 and action type 45 (rawtrigger/action.py). -/
def pmod : Mod → W
  | .set => 0x072D0000
  | .add => 0x082D0000
  | .sub => 0x092D0000

/-- One step of the machine at such a variable. -/
theorem PVar.step {L : Layout} {v : Nat} (hv : PVar L v) {m : Mem} (hm : L.Ok m) {md : Mod} (hmd : m (v + 352) = pmod md) {d : Nat}
    (hd : m (v + 344) = epd d) (he : EpdOK d) (hc : L.cell d) :
    SC.step ⟨m, v⟩ = some ⟨m.set d (arith md (m d) (m (v + 348))), ((m.set d (arith md (m d) (m (v + 348)))) (v + 4)).toNat⟩ := by
  have r1 : m (v + 20) = 0#32 := hm.rest _ hv.cend
  have r2 : m (v + 328) = 0xFFFFFFFF#32 := hm.rest _ hv.mask
  have r4 : m (v + 356) = 0x43530000#32 := hm.rest _ hv.eudx
  have r5 : m (v + 384) = 0#32 := hm.rest _ hv.aend
  have r6 : m (v + 2376) = 4#32 := hm.rest _ hv.flag
  have hat : VarAt m v := ⟨by rw [r1]; decide, by rw [hmd]; cases md <;> decide, by rw [r4]; decide, by rw [r4]; decide, by rw [r5]; decide,
    by rw [r6]; decide, by rw [r6]; decide, by rw [r6]; decide⟩
  have hmd' : varMod m v = some md := by unfold varMod; rw [hmd]; cases md <;> decide
  have hds : varDst m v = some (.mem d) := by
    unfold varDst
    rw [hd]
    exact dstOf_epd he
  have ne : ∀ r ∈ L.rest, d ≠ r.1 + 4 := fun r hr e => hc.2 (Or.inr (Or.inr (Or.inl ⟨r, hr, e⟩)))
  have hst := step_var hat hmd' hds ⟨ne _ hv.aend, ne _ hv.flag⟩
  have happ : (varAct m v md (.mem d)).apply m = m.set d (arith md (m d) (m (v + 348))) := by
    unfold varAct Act.apply
    simp only [Dst.addr, r2]
    congr 1
    exact modify_full _ _ _
  rwa [happ] at hst

/-- **A variable** of this kind: it does its action on its destination, and control goes to its next pointer. -/
theorem Layout.Runs.pvarM {L : Layout} {v : Nat} (hv : PVar L v) {s : Mem} {md : Mod} (hmd : s (v + 352) = pmod md) {d : Nat} (hd : s (v + 344) = epd d)
    (he : EpdOK d) (hc : L.cell d) : L.Runs s v (s.set d (arith md (s d) (s (v + 348)))) ((s.set d (arith md (s d) (s (v + 348)))) (v + 4)).toNat := by
  rintro m hm rfl
  rw [Layout.view_at hv.md.2] at hmd
  rw [Layout.view_at hv.dst.2] at hd
  have hst := hv.step hm hmd hd he hc
  refine ⟨m.set d (arith md (m d) (m (v + 348))), Reaches.step ?_, hm.set hc _, ?_⟩
  · rw [hst, Layout.view_at hv.val.2, Layout.view_at hc.2, ← Layout.view_set hc.2, Layout.view_at hv.nxt.2]
  · rw [Layout.view_set hc.2, Layout.view_at hv.val.2, Layout.view_at hc.2]

theorem Layout.Runs.pvar {L : Layout} {v : Nat} (hv : PVar L v) {s : Mem} (hm : s (v + 352) = pmod .set) {d : Nat} (hd : s (v + 344) = epd d)
    (he : EpdOK d) (hc : L.cell d) : L.Runs s v (s.set d (s (v + 348))) ((s.set d (s (v + 348))) (v + 4)).toNat :=
  Layout.Runs.pvarM hv hm hd he hc

/-- The same for any mask and any destination, including those relative to the current player. -/
theorem Layout.Runs.pvarD {L : Layout} (hw : L.Wf) {v M : Nat} (hv : PVar L v M) {s : Mem} {md : Mod} (hmd : s (v + 352) = pmod md) {D : Dst} (hd : dstOf (s (v + 344)) 0 = some D)
    (hc : L.cell (D.addr s)) :
    L.Runs s v (s.set (D.addr s) (modify md (s (D.addr s)) (s (v + 348)) (BitVec.ofNat 32 M)))
      ((s.set (D.addr s) (modify md (s (D.addr s)) (s (v + 348)) (BitVec.ofNat 32 M))) (v + 4)).toNat := by
  rintro m hm rfl
  rw [Layout.view_at hv.md.2] at hmd
  rw [Layout.view_at hv.dst.2] at hd
  have hda : D.addr (L.view m) = D.addr m := by
    cases D with
    | mem a => rfl
    | cp u => simp only [Dst.addr, Layout.view_at hw.cp]
  rw [hda] at hc ⊢
  have r1 : m (v + 20) = 0#32 := hm.rest _ hv.cend
  have r2 : m (v + 328) = BitVec.ofNat 32 M := hm.rest _ hv.mask
  have r4 : m (v + 356) = 0x43530000#32 := hm.rest _ hv.eudx
  have r5 : m (v + 384) = 0#32 := hm.rest _ hv.aend
  have r6 : m (v + 2376) = 4#32 := hm.rest _ hv.flag
  have hat : VarAt m v := ⟨by rw [r1]; decide, by rw [hmd]; cases md <;> decide, by rw [r4]; decide, by rw [r4]; decide, by rw [r5]; decide,
    by rw [r6]; decide, by rw [r6]; decide, by rw [r6]; decide⟩
  have hmd' : varMod m v = some md := by unfold varMod; rw [hmd]; cases md <;> decide
  have ne : ∀ r ∈ L.rest, D.addr m ≠ r.1 + 4 := fun r hr e => hc.2 (Or.inr (Or.inr (Or.inl ⟨r, hr, e⟩)))
  have hst := step_var hat hmd' (d := D) hd ⟨ne _ hv.aend, ne _ hv.flag⟩
  have happ : (varAct m v md D).apply m = m.set (D.addr m) (modify md (m (D.addr m)) (m (v + 348)) (BitVec.ofNat 32 M)) := by
    unfold varAct Act.apply
    simp only [r2]
  rw [happ] at hst
  refine ⟨m.set (D.addr m) (modify md (m (D.addr m)) (m (v + 348)) (BitVec.ofNat 32 M)), Reaches.step ?_, hm.set hc _, ?_⟩
  · rw [hst, Layout.view_at hv.val.2, Layout.view_at hc.2, ← Layout.view_set hc.2, Layout.view_at hv.nxt.2]
  · rw [Layout.view_set hc.2, Layout.view_at hv.val.2, Layout.view_at hc.2]

/-- The same among queued variables. -/
theorem Layout.Steps.pvar {L : Layout} {v : Nat} (hv : PVar L v) {K : KB} {s : Mem} {md : Mod} (hmd : s (v + 352) = pmod md) {d : Nat}
    (hd : s (v + 344) = epd d) (he : EpdOK d) (hc : L.cell d) (hdv : d ≠ v + 4) {n : Nat} (h4 : s (v + 4) = BitVec.ofNat 32 n) (hn : n < 2 ^ 32) :
    L.Steps ⟨[], K, s⟩ v ⟨[], K, s.set d (arith md (s d) (s (v + 348)))⟩ n := by
  intro m hm
  have hok := hm.ok
  simp only [Layout.redir_nil] at hok
  have hvw : L.view m = s := hm.vw
  rw [← hvw, Layout.view_at hv.md.2] at hmd
  rw [← hvw, Layout.view_at hv.dst.2] at hd
  rw [← hvw, Layout.view_at hv.nxt.2] at h4
  have hst := hv.step hok hmd hd he hc
  refine ⟨_, Reaches.step ?_, hm.cell hc _⟩
  rw [hst, set_ne (Ne.symm hdv), h4, BitVec.toNat_ofNat, Nat.mod_eq_of_lt hn, ← hvw, Layout.view_at hv.val.2, Layout.view_at hc.2]

end Eud.SC
