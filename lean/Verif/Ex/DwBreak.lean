import Verif.Lib.DwBreak
import Verif.Ex.FlagRead
/-
Example for C55: `f_dwbreak(x)` and `f_dwbreak2(x)`, in memory, for all values of the variable `x`.
-/

namespace Eud.SC

/-- A chain of variables that goes on to `n0`: nothing is emitted, the variables are triggers already. -/
def chS (l : List PvRun) (n0 : Nat) (_b _k x n m : Nat) : Option Emitted := if x = n0 then some ⟨pvHd l n0, n, m, [], [], []⟩ else none

theorem chS_code {L : Layout} (hw : L.Wf) {l : List PvRun} {n0 : Nat} (hn : n0 < 2 ^ 32) (hl : ∀ t ∈ l, PVar L t.v t.M ∧ t.v < 2 ^ 32) {r b k x n m : Nat} {E : Emitted}
    (h : chS l n0 b k x n m = some E) : Code L r b k (pvChain L l n0) E.e x := by
  unfold chS at h
  split at h
  · rename_i hx
    cases h
    rw [hx]
    exact pvChain_code hw hn hl
  · cases h

/-- The code of a call does not depend on the body. -/
theorem callS_body (fs fe np bk : Nat) (b b' : Stmt) (rs : List (Nat × Nat)) (args : List (Nat × Src)) : callS ⟨fs, fe, np, bk, b, rs, args⟩ = callS ⟨fs, fe, np, bk, b', rs, args⟩ := rfl

namespace ExDwBreak

def L00 : Layout := ⟨⟨[], [], []⟩, [], []⟩

/-! `f_dwbreak` -/

def B0 (n1 : Nat) : Brk := ⟨0xE000000, fun i => 0xE001000 + 0x1000 * i, fun i => trigAt i, n1, trigAt 6⟩
def tail1 : ES := .seq (.base (.seqs ((B0 0).bits.map (cBitTrig ((B0 0).num + 348))))) (.seq (.base (.trig [] (pvSetup ((B0 0).rets brkMask) (B0 0).fend))) (.site 1))
def T1 : Emitted := emitD (trigAt 6) (fun _ => chS ((B0 0).rets brkMask) (trigAt 6)) tail1 0 0 (trigAt 6) 20 0
def B : Brk := B0 T1.e
def nptr : Nat := fendPtr ((List.range 6).map B.fr) B.fend
def fS : Nat → (b k x n m : Nat) → Option Emitted
  | 0 => chS B.init B.n1
  | _ => chS (B.rets brkMask) B.fend
def fES : ES := .seq (.seq (.base (.trig [] B.initActs)) (.site 0)) tail1
def F : Emitted := emitD B.fend fS fES 0 0 B.fend 20 0

/-! `f_dwbreak2` -/

def full (_ : Nat) : Nat := 0xFFFFFFFF
def C0 (n1 : Nat) : Brk := ⟨0xE010000, fun i => 0xE011000 + 0x1000 * i, fun i => trigAt (10 + i), n1, trigAt 16⟩
def tail2 : ES := .seq (.base (.trig [] (C0 0).clear2)) (.seq (.base (.trig [] (pvSetup ((C0 0).rets full) (C0 0).fend))) (.site 1))
def T2 : Emitted := emitD (trigAt 16) (fun _ => chS ((C0 0).rets full) (trigAt 16)) tail2 0 0 (trigAt 16) 50 0
def C : Brk := C0 T2.e
def gptr : Nat := fendPtr ((List.range 6).map C.fr) C.fend
def gS : Nat → (b k x n m : Nat) → Option Emitted
  | 0 => chS C.init2 C.n1
  | _ => chS (C.rets full) C.fend
def gES : ES := .seq (.seq (.base (.trig [] (setsTo C.initSets2))) (.site 0)) tail2
def G : Emitted := emitD C.fend gS gES 0 0 C.fend 50 0

/-! The program -/

def x : Nat := exVar 0
def o (i : Nat) : Nat := exVar (1 + i) + 348
def p (i : Nat) : Nat := exVar (7 + i) + 348
def c2 (L : Layout) : Site := ⟨G.e, C.fend, gptr, haltAt, C.body2 L, C.outs p, [(C.num + 348, .var x)]⟩
def M2 : Emitted := emitD retAt (fun _ => callS (c2 L00)) (.site 0) 0 0 haltAt 60 20
def c1 (L : Layout) : Site := ⟨F.e, B.fend, nptr, M2.e, B.body L, B.outs o, [(B.num + 348, .var x)]⟩
def M1 : Emitted := emitD retAt (fun _ => callS (c1 L00)) (.site 0) 0 0 M2.e 60 40

/-! Memory -/

def parts : List (List SBlk) := [fendBlks ((List.range 6).map B.fr) B.fend, fendBlks ((List.range 6).map C.fr) C.fend, F.blks, G.blks]
def sparts : List (List Blk) := [F.seqs, G.seqs, M2.seqs, M1.seqs]
def L0 : Layout := ⟨⟨parts.flatten, sparts.flatten, (List.range 13).map exVar⟩, [], []⟩
def X : List (Nat × Nat) := pvPins B.num ++ (List.range 6).flatMap (fun i => pvPins (B.v i) (brkMask i)) ++ pvPins C.num ++ (List.range 6).flatMap (fun i => pvPins (C.v i))
def L : Layout := L0.pin X

def vs (xv : W) : List W := xv :: List.replicate 12 9
def holes : List (Nat × W) := [B.num, B.v 0, B.v 1, B.v 2, B.v 3, B.v 4, B.v 5, C.num, C.v 0, C.v 1, C.v 2, C.v 3, C.v 4, C.v 5].map fun v => (v + 352, pmod .set)
def mem (xv : W) : Mem := L0.mem exBuf (vs xv) (pinHoles X ++ holes)

theorem laid (xv : W) : L0.Laid exBuf (vs xv) := Layout.laidB_spec (show L0.laidB exBuf 13 = true by decide +kernel)
theorem pins : L0.pinB exBuf 13 X = true := by decide +kernel
theorem laid0 : L0.Laid exBuf (vs 0) := laid 0
theorem wf : L.Wf := laid0.pinWf pins
theorem ok (xv : W) : L.Ok (mem xv) := (laid xv).pinOk pins holes
def cellQ (x : Nat) : Bool := L0.pinCellB X x
theorem cell {x : Nat} (h : cellQ x = true) : L.cell x := laid0.pinCellB h
theorem pv {v M : Nat} (h : (v, M) ∈ (B.num, 0xFFFFFFFF) :: (C.num, 0xFFFFFFFF) :: ((List.range 6).map (fun i => (B.v i, brkMask i)) ++ (List.range 6).map fun i => (C.v i, 0xFFFFFFFF))) : PVar L v M := by
  have h1 : ∀ q ∈ (B.num, 0xFFFFFFFF) :: (C.num, 0xFFFFFFFF) :: ((List.range 6).map (fun i => (B.v i, brkMask i)) ++ (List.range 6).map fun i => (C.v i, 0xFFFFFFFF)),
    (∀ r ∈ pvPins q.1 q.2, r ∈ X) ∧ (∀ o ∈ [4, 344, 348, 352], L0.Free exBuf 13 (q.1 + o) ∧ ∀ r ∈ X, q.1 + o ≠ r.1 + 4) := by decide +kernel
  exact PVar.pin laid0 (h1 _ h).1 (h1 _ h).2
theorem vars : ∀ v ∈ (List.range 13).map exVar, v ∈ L.P.vars := fun _ h => h
theorem bp {l : List SBlk} (k : Nat) (h : parts[k]? = some l) : ∀ b ∈ l, b ∈ L.P.blks := fun _ hb => List.mem_flatten.2 ⟨l, List.mem_of_getElem? h, hb⟩
theorem sp {l : List Blk} (k : Nat) (h : sparts[k]? = some l) : ∀ b ∈ l, b ∈ L.P.seqs := fun _ hb => List.mem_flatten.2 ⟨l, List.mem_of_getElem? h, hb⟩

/-! Code -/

theorem bok : B.Ok L brkMask := by
  refine ⟨pv (by simp), ?_, ?_, by decide +kernel⟩
  · intro t ht
    obtain ⟨i, hi, rfl⟩ := List.mem_map.1 ht
    exact pv (by simp only [List.mem_cons, List.mem_append, List.mem_map]; exact Or.inr (Or.inr (Or.inl ⟨i, hi, rfl⟩)))
  · have h : ∀ i < 6, cellQ (B.fr i + 348) = true ∧ EpdOK (B.fr i + 348) ∧ EpdOK (B.v i + 348) := by decide +kernel
    exact fun i hi => ⟨cell (h i hi).1, (h i hi).2⟩

theorem cok : C.Ok L full := by
  refine ⟨pv (by simp), ?_, ?_, by decide +kernel⟩
  · intro t ht
    obtain ⟨i, hi, rfl⟩ := List.mem_map.1 ht
    exact pv (by simp only [List.mem_cons, List.mem_append, List.mem_map]; exact Or.inr (Or.inr (Or.inr ⟨i, hi, rfl⟩)))
  · have h : ∀ i < 6, cellQ (C.fr i + 348) = true ∧ EpdOK (C.fr i + 348) ∧ EpdOK (C.v i + 348) := by decide +kernel
    exact fun i hi => ⟨cell (h i hi).1, (h i hi).2⟩

def ff : Nat → Stmt
  | 0 => pvChain L B.init B.n1
  | _ => pvChain L (B.rets brkMask) B.fend

theorem fF : FuncCode L F.e B.fend nptr ((B.outs o).map Prod.fst) (B.body L) := by
  have hi : F.Into L := ⟨bp 2 rfl, sp 0 rfl, by rw [show F.rest = [] by decide +kernel]; simp⟩
  have c4 : ∀ v ∈ (List.range 6).map B.fr, cellQ (v + 4) = true ∧ v < 2 ^ 32 := by decide +kernel
  refine ⟨⟨0, 0, emitD_code (S := fS) (f := ff) (es := fES) ?_ (by decide +kernel) hi⟩, fendBlks_end (bp 0 rfl) (cell (by decide +kernel)) (fun v hv => ⟨cell (c4 v hv).1, (c4 v hv).2⟩) (by decide +kernel)⟩
  intro j b k x n m E h hi
  have l1 : ∀ t ∈ B.init, (t.v, t.M) ∈ (B.num, 0xFFFFFFFF) :: (C.num, 0xFFFFFFFF) :: ((List.range 6).map (fun i => (B.v i, brkMask i)) ++ (List.range 6).map fun i => (C.v i, 0xFFFFFFFF)) ∧ t.v < 2 ^ 32 := by
    decide +kernel
  have l2 : ∀ t ∈ B.rets brkMask, (t.v, t.M) ∈ (B.num, 0xFFFFFFFF) :: (C.num, 0xFFFFFFFF) :: ((List.range 6).map (fun i => (B.v i, brkMask i)) ++ (List.range 6).map fun i => (C.v i, 0xFFFFFFFF)) ∧ t.v < 2 ^ 32 := by
    decide +kernel
  match j with
  | 0 => exact chS_code wf (by decide +kernel) (fun t ht => ⟨pv (l1 t ht).1, (l1 t ht).2⟩) h
  | _ + 1 => exact chS_code wf (by decide +kernel) (fun t ht => ⟨pv (l2 t ht).1, (l2 t ht).2⟩) h

def gf : Nat → Stmt
  | 0 => pvChain L C.init2 C.n1
  | _ => pvChain L (C.rets full) C.fend

theorem fG : FuncCode L G.e C.fend gptr ((C.outs p).map Prod.fst) (C.body2 L) := by
  have hi : G.Into L := ⟨bp 3 rfl, sp 1 rfl, by rw [show G.rest = [] by decide +kernel]; simp⟩
  have c4 : ∀ v ∈ (List.range 6).map C.fr, cellQ (v + 4) = true ∧ v < 2 ^ 32 := by decide +kernel
  refine ⟨⟨0, 0, emitD_code (S := gS) (f := gf) (es := gES) ?_ (by decide +kernel) hi⟩, fendBlks_end (bp 1 rfl) (cell (by decide +kernel)) (fun v hv => ⟨cell (c4 v hv).1, (c4 v hv).2⟩) (by decide +kernel)⟩
  intro j b k x n m E h hi
  have l1 : ∀ t ∈ C.init2, (t.v, t.M) ∈ (B.num, 0xFFFFFFFF) :: (C.num, 0xFFFFFFFF) :: ((List.range 6).map (fun i => (B.v i, brkMask i)) ++ (List.range 6).map fun i => (C.v i, 0xFFFFFFFF)) ∧ t.v < 2 ^ 32 := by
    decide +kernel
  have l2 : ∀ t ∈ C.rets full, (t.v, t.M) ∈ (B.num, 0xFFFFFFFF) :: (C.num, 0xFFFFFFFF) :: ((List.range 6).map (fun i => (B.v i, brkMask i)) ++ (List.range 6).map fun i => (C.v i, 0xFFFFFFFF)) ∧ t.v < 2 ^ 32 := by
    decide +kernel
  match j with
  | 0 => exact chS_code wf (by decide +kernel) (fun t ht => ⟨pv (l1 t ht).1, (l1 t ht).2⟩) h
  | _ + 1 => exact chS_code wf (by decide +kernel) (fun t ht => ⟨pv (l2 t ht).1, (l2 t ht).2⟩) h

theorem cs2 : callS (c2 L) = callS (c2 L00) := callS_body _ _ _ _ _ _ _ _
theorem cs1 : callS (c1 L) = callS (c1 L00) := callS_body _ _ _ _ _ _ _ _

theorem code2 : Code L retAt 0 0 ((c2 L).stmt L) M2.e haltAt :=
  emitD_code (S := fun _ => callS (c2 L00)) (f := fun _ => (c2 L).stmt L) (es := .site 0) (fun j b k x n m E h hi => callS_code (c := c2 L) wf fG (by decide +kernel) (by rw [cs2]; exact h) hi) (by decide +kernel)
    ⟨by rw [show (emitD retAt (fun _ => callS (c2 L00)) (.site 0) 0 0 haltAt 60 20).blks = [] by decide +kernel]; simp, sp 2 rfl,
     by rw [show (emitD retAt (fun _ => callS (c2 L00)) (.site 0) 0 0 haltAt 60 20).rest = [] by decide +kernel]; simp⟩
theorem code1 : Code L retAt 0 0 ((c1 L).stmt L) M1.e M2.e :=
  emitD_code (S := fun _ => callS (c1 L00)) (f := fun _ => (c1 L).stmt L) (es := .site 0) (fun j b k x n m E h hi => callS_code (c := c1 L) wf fF (by decide +kernel) (by rw [cs1]; exact h) hi) (by decide +kernel)
    ⟨by rw [show (emitD retAt (fun _ => callS (c1 L00)) (.site 0) 0 0 M2.e 60 40).blks = [] by decide +kernel]; simp, sp 3 rfl,
     by rw [show (emitD retAt (fun _ => callS (c1 L00)) (.site 0) 0 0 M2.e 60 40).rest = [] by decide +kernel]; simp⟩

/-- The results of both functions, for any dword. -/
theorem run (xv : W) : ∃ m', Reaches ⟨mem xv, M1.e⟩ ⟨m', haltAt⟩ ∧ (∀ i < 6, m' (o i) = BitVec.ofNat 32 (brkPart xv i)) ∧ ∀ i < 6, m' (p i) = xv &&& Brk.mask2 i := by
  have hl := laid xv
  have hvv : ∀ a, L.cell a → ∀ m, L.view m a = m a := fun a ha m => Layout.view_at ha.2
  have fr : ∀ z, cellQ z = true ∧ L0.Free exBuf 13 z → L.view (mem xv) z = match (pinHoles X ++ holes).find? (fun r => r.1 == z) with | some r => r.2 | none => 0 := by
    intro z hz
    rw [hvv _ (cell hz.1)]
    exact hl.free hz.2 (by decide) _
  have md : ∀ v ∈ [B.num, B.v 0, B.v 1, B.v 2, B.v 3, B.v 4, B.v 5, C.num, C.v 0, C.v 1, C.v 2, C.v 3, C.v 4, C.v 5], L.view (mem xv) (v + 352) = pmod .set := by
    have h : ∀ v ∈ [B.num, B.v 0, B.v 1, B.v 2, B.v 3, B.v 4, B.v 5, C.num, C.v 0, C.v 1, C.v 2, C.v 3, C.v 4, C.v 5], (cellQ (v + 352) = true ∧ L0.Free exBuf 13 (v + 352)) ∧
      (pinHoles X ++ holes).find? (fun r => r.1 == v + 352) = some (v + 352, pmod .set) := by decide +kernel
    intro v hv
    rw [fr _ (h v hv).1, (h v hv).2]
  have ix : L.view (mem xv) (x + 348) = xv := by
    rw [hvv _ (cell (by decide +kernel))]
    exact (hl.ok _).2 0 (by simp [vs])
  have hb : ∀ i < 6, fretBlk (B.fr i) ∈ L0.P.blks := by
    intro i hi
    exact bp 0 rfl _ (List.mem_append_left _ (List.mem_map_of_mem (List.mem_map_of_mem (List.mem_range.2 hi))))
  have iz : ∀ i, i = 0 ∨ i = 2 → L.view (mem xv) (B.fr i + 348) = 0 := by
    intro i hi
    have hd : ∀ i, i = 0 ∨ i = 2 → cellQ (B.fr i + 348) = true ∧ (pinHoles X ++ holes).find? (fun r => r.1 == (fretBlk (B.fr i)).t + 348) = none := by
      rintro i (rfl | rfl) <;> decide +kernel
    rw [hvv _ (cell (hd i hi).1)]
    have := (hl.hole (hb i (by omega)) (o := 348) (by decide) (by rcases hi with rfl | rfl <;> decide +kernel) (fun h => absurd h (by decide)) (pinHoles X ++ holes)).2
    rw [(hd i hi).2] at this
    exact this
  have ho := ok xv
  generalize hs : L.view (mem xv) = s at *
  have m6 : ∀ i < 6, s (B.v i + 352) = pmod .set ∧ s (C.v i + 352) = pmod .set := by
    intro i hi
    have hc : i = 0 ∨ i = 1 ∨ i = 2 ∨ i = 3 ∨ i = 4 ∨ i = 5 := by omega
    rcases hc with rfl | rfl | rfl | rfl | rfl | rfl <;> exact ⟨md _ (by simp), md _ (by simp)⟩
  obtain ⟨s1, x1, k1, -, f1⟩ := C55_break (B := B) (x := .var x) (s := s) (o := o) (back := M2.e) wf bok (callOkB_spec (cell := cellQ) (fun x h => cell h) vars (by decide +kernel)) fF (by decide +kernel)
    ⟨md _ (by simp), fun i hi => (m6 i hi).1, by rw [iz 0 (by simp)]; decide, by rw [iz 2 (by simp)]; decide⟩ (by decide +kernel) (by decide +kernel)
  simp only [Src.valM, ix] at k1
  have i2 : C.Inv2 s1 := by
    have hk : ∀ y ∈ C.kept, y ∉ callOnly nptr (B.outs o) [(B.num + 348, .var x)] B.own := by decide +kernel
    exact Brk.Inv2.only (s := s) ⟨md _ (by simp), fun i hi => (m6 i hi).2⟩ fun y hy => f1 y (hk y hy)
  obtain ⟨s2, x2, k2, -, f2⟩ := C55_break2 (B := C) (x := .var x) (s := s1) (o := p) (back := haltAt) wf cok (callOkB_spec (cell := cellQ) (fun x h => cell h) vars (by decide +kernel)) fG (by decide +kernel)
    i2 (by decide +kernel) (by decide +kernel)
  simp only [Src.valM] at k2
  rw [f1 (x + 348) (by decide +kernel), ix] at k2
  obtain ⟨m', rr, -, hv'⟩ := ((C25_structured wf x1 code1).trans (C25_structured wf x2 code2)) _ ho hs
  have hm : ∀ z, cellQ z = true → m' z = s2 z := fun z hz => by rw [← Layout.view_at (L := L) (m := m') (cell hz).2, hv']
  have hq : ∀ i < 6, (cellQ (o i) = true ∧ o i ∉ callOnly gptr (C.outs p) [(C.num + 348, .var x)] C.own) ∧ cellQ (p i) = true := by decide +kernel
  refine ⟨m', rr, fun i hi => ?_, fun i hi => ?_⟩
  · rw [hm _ (hq i hi).1.1, f2 _ (hq i hi).1.2, k1 i hi]
  · rw [hm _ (hq i hi).2, k2 i hi]

end ExDwBreak

end Eud.SC
