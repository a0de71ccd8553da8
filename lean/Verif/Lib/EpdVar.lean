import Verif.Lib.VArr
/-
`EPD(p)` of a variable: utils/etc.py:28-90.
-/

namespace Eud.SC

/-! ## Actions on one dword -/

/-- Actions that all work on the dword at `a`. -/
def cellPAs (a : Nat) (l : List COp) : List PA := l.map fun c => aMemX a c.1 c.2.1 c.2.2

theorem cellPAs_run (a : Nat) : ∀ (l : List COp) (s : Mem), runPA (cellPAs a l) s = s.set a (l.foldl COp.run (s a))
  | [], s => by simp [cellPAs, runPA_nil, set_self]
  | c :: l, s => by
    rw [cellPAs, List.map_cons, runPA_cons, aMemX_run, List.foldl_cons, ← cellPAs, cellPAs_run a l, set_eq]
    funext y
    simp only [get_set]
    split <;> rfl

theorem cellPAs_ok {L : Layout} {a : Nat} (h : L.cell a) : ∀ (l : List COp) (s : Mem), ActsOk L (cellPAs a l) s
  | [], _ => trivial
  | c :: l, s => actsOk_memX h (cellPAs_ok h l _)

theorem cellPAs_placed {a : Nat} {ps : List PA} : ∀ (l : List COp) (x : Nat), PlacedA (x + 32 * l.length) ps → PlacedA x (cellPAs a l ++ ps)
  | [], _, h => h
  | c :: l, x, h => ⟨aMemX_static _ _ _ _, cellPAs_placed l (x + 32) (by rw [show x + 32 + 32 * l.length = x + 32 * (c :: l).length by simp only [List.length_cons]; omega]; exact h)⟩

/-! ## The value -/

/-- utils/etc.py:47-54, 61-69: `AddNumber(-0x58A364)`, `SetNumberX(0, 0b11)`, and `SubtractNumberX(0b11 << t, 0b111 << t)` for `t` up to 29. -/
def epdCOps : List COp := (.add, -0x58A364, 0xFFFFFFFF) :: (.set, 0, fld 2 0) :: shrSteps 2 0 30

/-- What comes out. -/
def epdOf (x : W) : W := (x - 0x58A364) >>> 2

theorem epdCOps_spec (x : W) : epdCOps.foldl COp.run x = epdOf x := by
  have h := shrOps_spec (n := 2) (by decide) (x - 0x58A364)
  rw [epdCOps, List.foldl_cons, show (.set, 0, fld 2 0) :: shrSteps 2 0 30 = shrOps 2 from rfl]
  have : COp.run x (.add, -0x58A364, 0xFFFFFFFF) = x - 0x58A364 := by
    simp only [COp.run]
    rw [modify_full]
    simp only [arith]
    exact (BitVec.sub_eq_add_neg ..).symm
  rw [this, h]
  rfl

theorem epdCOps_length : epdCOps.length = 32 := by decide

theorem epdOf_toNat (x : W) : (epdOf x).toNat = (x.toNat + (2 ^ 32 - 0x58A364)) % 2 ^ 32 / 4 := by
  unfold epdOf
  rw [BitVec.toNat_ushiftRight, BitVec.toNat_sub, Nat.shiftRight_eq_div_pow]
  simp only [show BitVec.toNat (0x58A364 : W) = 0x58A364 from rfl]
  omega

/-- The dword that the game finds at this EPD is the one that contains the byte `x`, for every pointer. -/
theorem C54_addr (x : W) : epdAddr (epdOf x) = x.toNat / 4 * 4 := by
  have := x.isLt
  unfold epdAddr
  rw [epdOf_toNat]
  simp only [deathTable]
  omega

/-- Pointers behind the table of deaths get the same number as constants do. -/
theorem C54_same {a : Nat} (h : a % 4 = 0) (h1 : 0x58A364 ≤ a) (h2 : a < 2 ^ 32) : epdOf (BitVec.ofNat 32 a) = epd a := by
  apply BitVec.eq_of_toNat_eq
  rw [epdOf_toNat, epd_toNat a h h2, if_pos h1, BitVec.toNat_ofNat]
  omega

/-- Below the table the number is another one: `EPD(v) == EPD(0x500000)` is false for a variable `v` with value `0x500000` (the address meant is the same, `C54_addr`). -/
theorem C54_counterexample : epdOf 0x500000 ≠ epd 0x500000 := by decide

/-! ## In place -/

/-- utils/etc.py:46-56: no other reference to the variable `v`. -/
def epdIn (v : Nat) : Stmt := .trig [] (cellPAs (v + 348) epdCOps)

theorem C54_inplace {L : Layout} {v : Nat} (hv : L.cell (v + 348)) (s : Mem) : Does L (epdIn v) s fun s' => s' = s.set (v + 348) (epdOf (s (v + 348))) :=
  Does.acts (cellPAs_ok hv _ _) (by rw [cellPAs_run, epdCOps_spec])

/-! ## Through the shared trigger -/

/-- utils/etc.py:57-73: the actions of the trigger at `f`; the last one hands over the result. -/
def epdActs (f : Nat) : List PA := cellPAs (f + 1372) epdCOps ++ [aPutM (f + 1352) .set]

/-- From the trigger to `n`: the value becomes the EPD, also at `d`. -/
def EpdTrgRel (L : Layout) (f n d : Nat) (s s' : Mem) : Prop :=
  s (f + 4) = BitVec.ofNat 32 n ∧ s (f + 1368) = epd d ∧ EpdOK d ∧ L.cell d ∧ d ≠ f + 4 ∧ s' = (s.set (f + 1372) (epdOf (s (f + 1372)))).set d (epdOf (s (f + 1372)))

structure EpdTrg (L : Layout) (f : Nat) : Prop where
  blk : (⟨f, ⟨[], (epdActs f).map PA.a⟩, none, false⟩ : SBlk) ∈ L.P.blks
  cell : ∀ x ∈ [f + 4, f + 1368, f + 1372], L.cell x
  lt : f < 2 ^ 32

/-- utils/etc.py:75-88 `EPD(p, ret=..)` -/
def epdCall (L : Layout) (f n d : Nat) (p : Src) : Stmt :=
  .seq (.asg [⟨f + 4, .set, .const (BitVec.ofNat 32 n)⟩, ⟨f + 1368, .set, .const (epd d)⟩, ⟨f + 1372, .set, p⟩]) (.prim (EpdTrgRel L f n d))

theorem epdTrg_code {L : Layout} (hw : L.Wf) {f n d : Nat} (hf : EpdTrg L f) (hn : n < 2 ^ 32) {r b c : Nat} : Code L r b c (.prim (EpdTrgRel L f n d)) f n := by
  refine .prim ?_
  rintro s s' ⟨h1, h2, h3, h4, h5, rfl⟩
  have c4 := hf.cell (f + 4) (by simp)
  have cv := hf.cell (f + 1372) (by simp)
  have e2 : (s.set (f + 1372) (epdOf (s (f + 1372)))) (f + 1352 + 16) = epd d := (set_ne (by omega)).trans h2
  have h := Layout.Runs.dyn hw (cs := []) (as := epdActs f) hf.blk c4.2 trivial (cellPAs_placed _ _ (by rw [epdCOps_length]; exact ⟨by simp [aPutM], trivial⟩)) (s := s) (by simp)
    (fun _ => ActsOk.append.2 ⟨cellPAs_ok cv _ _, by rw [cellPAs_run, epdCOps_spec]; exact actsOk_putM e2 h3 h4 trivial⟩)
  rw [if_pos (holdsAll_nil s)] at h
  rw [epdActs, runPA_append, cellPAs_run, epdCOps_spec, runPA_cons, runPA_nil, aPutM_run e2 h3, set_ne (Ne.symm h5), set_ne (show f + 4 ≠ f + 1372 by omega), h1, BitVec.toNat_ofNat, Nat.mod_eq_of_lt hn] at h
  simp only [arith, show f + 1352 + 20 = f + 1372 by omega, set_eq] at h
  exact h

/-- **C54.** `EPD(p)` for all pointers: the EPD of the dword with this byte; besides the result only the shared trigger changes. -/
theorem C54_epd {L : Layout} {f n d : Nat} (hf : EpdTrg L f) {p : Src} (hp : ∀ v, p = .var v → v ∈ L.P.vars ∧ v + 348 ≠ f + 4 ∧ v + 348 ≠ f + 1368) (hd : EpdOK d) (hc : L.cell d)
    (hn : d ≠ f + 4) (hn2 : d ≠ f + 1372) (s : Mem) :
    Does L (epdCall L f n d p) s fun s' => s' d = epdOf (p.valM s) ∧ epdAddr (s' d) = (p.valM s).toNat / 4 * 4 ∧ Only [d, f + 4, f + 1368, f + 1372] s s' := by
  have ep : p.valM ((s.set (f + 4) (BitVec.ofNat 32 n)).set (f + 1368) (epd d)) = p.valM s := by
    cases p with
    | const c => rfl
    | var v => exact (set_ne (hp v rfl).2.2).trans (set_ne (hp v rfl).2.1)
  refine Does.seq (Does.asg ?_ ?_ ?_)
  · intro g hg
    simp only [List.mem_cons, List.not_mem_nil, or_false] at hg
    rcases hg with rfl | rfl | rfl <;> exact hf.cell _ (by simp)
  · intro g hg v hv
    simp only [List.mem_cons, List.not_mem_nil, or_false] at hg
    rcases hg with rfl | rfl | rfl
    · cases hv
    · cases hv
    · exact (hp v hv).1
  · have er : runAsg [⟨f + 4, .set, .const (BitVec.ofNat 32 n)⟩, ⟨f + 1368, .set, .const (epd d)⟩, ⟨f + 1372, .set, p⟩] s =
        ((s.set (f + 4) (BitVec.ofNat 32 n)).set (f + 1368) (epd d)).set (f + 1372) (p.valM s) := by rw [← ep]; rfl
    rw [er]
    refine Does.prim ⟨?_, ?_, hd, hc, hn, rfl⟩ ?_
    · rw [set_ne (by omega), set_ne (by omega), set_eq]
    · rw [set_ne (by omega), set_eq]
    · simp only [set_eq]
      refine ⟨trivial, C54_addr _, ?_⟩
      intro y hy
      simp only [List.mem_cons, List.not_mem_nil, or_false, not_or] at hy
      rw [set_ne hy.1, set_ne hy.2.2.2, set_ne hy.2.2.2, set_ne hy.2.2.1, set_ne hy.2.1]

end Eud.SC
