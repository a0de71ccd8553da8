import Verif.Ex.SubRead
/-
Example for C32: `_boolread_epd(e, i)`, and `_bitread_epd(2)(e, i)`, in memory, for all values of the variable `i` and of the dword.
-/

namespace Eud.SC

namespace ExFlagRead

def tbl0 : Nat := 0xE010000
def tbl1 : Nat := 0xE012000

def S : FlagRd := ⟨0xE000000, exVar 2, trigAt 0, trigAt 1⟩
def nptr : Nat := fendPtr [S.bv] S.fend
/-- The function for single bits: its parameters, its variable `b`, its result variable. -/
def ev : Nat := 0xE001000
def sv : Nat := exVar 4
def b : Nat := exVar 5
def fr : Nat := trigAt 30
def gend : Nat := trigAt 31
def gptr : Nat := fendPtr [fr] gend

def e : Nat := exVar 0
def i : Nat := exVar 1
def o1 : Nat := exVar 3 + 348
def o2 : Nat := exVar 6 + 348
def D : Nat := 0xE020000

/-! `_boolread_epd` -/

def swBlks : List SBlk := sw4ABlks (S.sv + 348) (trigAt 10) (trigAt 11) (trigAt 12) (trigAt 13) (trigAt 14) tbl0 S.fend S.acts
def tab0 : List (Nat × Nat) := sw4Tab tbl0 (trigAt 20) (trigAt 21) (trigAt 22) (trigAt 23)
def cb (i : Nat) : SBlk := ⟨trigAt (20 + i), ⟨[cpMask (byteMask 1 i)].map PC.c, [aMem (S.bv + 348) .set 1].map PA.a⟩, some S.cpc, false⟩
def cblks : List SBlk := [cb 0, cb 1, cb 2, cb 3]

/-! `_bitread_epd(2)` -/

def L00 : Layout := ⟨⟨[], [], []⟩, [], []⟩
def T : Emitted := emitD gend (fun _ _ _ _ _ _ => none) (.base (retVar fr b)) 0 0 gend 32 0
def swEnd : Nat := trigAt 32
def gcb (i : Nat) : SBlk := ⟨trigAt (50 + i), ⟨[cpMask (pow2 (1 + 8 * i))].map PC.c, [aMem (b + 348) .set 1].map PA.a⟩, some swEnd, false⟩
def gcblks : List SBlk := [gcb 0, gcb 1, gcb 2, gcb 3]
def gsw : List SBlk := sw4Blks (sv + 348) (trigAt 40) (trigAt 41) (trigAt 42) (trigAt 43) (trigAt 44) tbl1 swEnd
def tab1 : List (Nat × Nat) := sw4Tab tbl1 (trigAt 50) (trigAt 51) (trigAt 52) (trigAt 53)
def swS (_b _k x n m : Nat) : Option Emitted := if x = swEnd then some ⟨trigAt 40, n, m, [], [], []⟩ else none
def evA : List PA := [aMem (ev + 344) .set (epd cpAddr), aMem (b + 348) .set 0]
def gS : Nat → (b k x n m : Nat) → Option Emitted
  | 0 => vpS ev (trigAt 40) evA
  | 1 => swS
  | _ => vpS S.cpc T.e [aMem (S.cpc + 344) .set (epd cpAddr)]
def gES : ES := .seq (.site 0) (.seq (.site 1) (.seq (.site 2) (.base (retVar fr b))))
def G : Emitted := emitD gend gS gES 0 0 gend 32 0

/-! The program -/

def args : List (Nat × Src) := [(cpAddr, .var e), (S.sv + 348, .var i)]
def args2 : List (Nat × Src) := [(ev + 348, .var e), (sv + 348, .var i)]
def c2 (L : Layout) : Site := ⟨G.e, gend, gptr, haltAt, bitRdBody L ev sv S.cpc b fr 1 (trigAt 40) T.e, [(fr, o2)], args2⟩
def M2 : Emitted := emitD retAt (fun _ => callS (c2 L00)) (.site 0) 0 0 haltAt 60 20
def c1 (L : Layout) : Site := ⟨trigAt 10, S.fend, nptr, M2.e, S.body L, [(S.bv, o1)], args⟩
def M1 : Emitted := emitD retAt (fun _ => callS (c1 L00)) (.site 0) 0 0 M2.e 60 40

/-! Memory -/

def parts : List (List SBlk) := [fendBlks [S.bv] S.fend, swBlks, cblks, fendBlks [fr] gend, G.blks, gsw, gcblks]
def sparts : List (List Blk) := [G.seqs, M2.seqs, M1.seqs]
def L0 : Layout := ⟨⟨parts.flatten, sparts.flatten, (List.range 7).map exVar⟩, [(trigAt 10, S.fend), (trigAt 40, swEnd)], []⟩
def X : List (Nat × Nat) := pvPins S.cpc ++ pvPins ev ++ tab0 ++ tab1
def L : Layout := ((L0.pin X).hide (trigAt 14 + 4)).hide (trigAt 44 + 4)

def vs (iv : W) : List W := [epd D, iv, 9, 9, 9, 9, 9]
def holes0 : List (Nat × W) := [(S.cpc + 348, 5), (S.cpc + 352, pmod .set), (ev + 352, pmod .set), (S.bv + 348, 7)]
def holes (x : W) : List (Nat × W) := holes0 ++ [(D, x)]
def mem (iv x : W) : Mem := L0.mem exBuf (vs iv) (pinHoles X ++ holes x)

theorem laid (iv : W) : L0.Laid exBuf (vs iv) := Layout.laidB_spec (show L0.laidB exBuf 7 = true by decide +kernel)
theorem pins : L0.pinB exBuf 7 X = true := by decide +kernel
theorem laid0 : L0.Laid exBuf (vs 0) := laid 0
theorem wf : L.Wf := ((laid0.pinWf pins).hide (Layout.freeB_spec (by decide +kernel))).hide (Layout.freeB_spec (by decide +kernel))
theorem ok (iv x : W) : L.Ok (mem iv x) := by
  have h := (laid iv).pinOk pins (holes x)
  exact ⟨h.prog, h.mask, h.rest⟩
def cellQ (x : Nat) : Bool := L0.pinCellB X x && x != trigAt 14 + 4 && x != trigAt 44 + 4
theorem cell {x : Nat} (h : cellQ x = true) : L.cell x := by
  simp only [cellQ, Bool.and_eq_true, bne_iff_ne, ne_eq] at h
  have hc := laid0.pinCellB h.1.1
  exact ⟨hc.1, by rw [L, Layout.hide_priv, Layout.hide_priv]; exact fun e => e.elim h.2 fun e => e.elim h.1.2 hc.2⟩
theorem pv {v : Nat} (h : v ∈ [S.cpc, ev]) : PVar L v := by
  have h1 : ∀ v ∈ [S.cpc, ev], (∀ r ∈ pvPins v, r ∈ X) ∧ (∀ o ∈ [4, 344, 348, 352], L0.Free exBuf 7 (v + o) ∧ ∀ r ∈ X, v + o ≠ r.1 + 4) ∧ trigAt 14 + 4 ∉ [v + 4, v + 344, v + 348, v + 352] ∧
    trigAt 44 + 4 ∉ [v + 4, v + 344, v + 348, v + 352] := by decide +kernel
  exact ((PVar.pin laid0 (h1 v h).1 (h1 v h).2.1).hide (h1 v h).2.2.1).hide (h1 v h).2.2.2
theorem vars : ∀ v ∈ (List.range 7).map exVar, v ∈ L.P.vars := fun _ h => h
theorem bp {l : List SBlk} (k : Nat) (h : parts[k]? = some l) : ∀ b ∈ l, b ∈ L.P.blks := fun _ hb => List.mem_flatten.2 ⟨l, List.mem_of_getElem? h, hb⟩
theorem sp {l : List Blk} (k : Nat) (h : sparts[k]? = some l) : ∀ b ∈ l, b ∈ L.P.seqs := fun _ hb => List.mem_flatten.2 ⟨l, List.mem_of_getElem? h, hb⟩
theorem xr : ∀ r ∈ X, r ∈ L.rest := fun _ hr => List.mem_append_right _ hr

/-! Code -/

theorem sok : S.Ok L := ⟨pv (by simp), cell (by decide +kernel), cell (by decide +kernel), by decide +kernel⟩

theorem caseCode (j : Nat) (hb : cb j ∈ L.P.blks) {r k : Nat} : Code L r S.fend k (S.case L j) (trigAt (20 + j)) 0 :=
  .seq (m := S.cpc) (.trig (placedCB_spec rfl) (placedAB_spec rfl) hb) (.seq (m := S.fend) (pv_code wf (pv (by simp)) (by decide)) .brk)

theorem bodyCode {r b k : Nat} : Code L r b k (S.body L) (trigAt 10) S.fend := by
  have sw : ∀ s, ActsOk L S.acts s → runPA S.acts s (S.sv + 348) = s (S.sv + 348) →
      L.Runs s (trigAt 10) (if (s (S.sv + 348)).toNat < 4 then runPA S.acts s else s) (caseOf [(0, trigAt 20), (1, trigAt 21), (2, trigAt 22), (3, trigAt 23)] S.fend (s (S.sv + 348))) := fun s ha hs =>
    sw4A_runs wf (cell (by decide +kernel)) (bp 1 rfl) (placedAB_spec (by decide +kernel)) (.head _) (fun r hr => xr r (List.mem_append_left _ (List.mem_append_right _ hr))) (by decide) (by decide)
      (by simp [L, Layout.hide]) (laid0.cellB (x := trigAt 14 + 4) (by decide +kernel)).1 (by decide) (by decide +kernel) s ha hs
  refine swAD_code wf (val := fun s => s (S.sv + 348)) (cases := [(0, trigAt 20, S.case L 0), (1, trigAt 21, S.case L 1), (2, trigAt 22, S.case L 2), (3, trigAt 23, S.case L 3)]) ?_ ?_ ?_
  · intro s hl
    have h4 : ¬ (s (S.sv + 348)).toNat < 4 := by
      intro h
      have : s (S.sv + 348) = 0 ∨ s (S.sv + 348) = 1 ∨ s (S.sv + 348) = 2 ∨ s (S.sv + 348) = 3 := by
        simp only [← BitVec.toNat_inj]
        generalize (s (S.sv + 348)).toNat = n at h
        have : (0 : W).toNat = 0 := rfl
        have : (1 : W).toNat = 1 := rfl
        have : (2 : W).toNat = 2 := rfl
        have : (3 : W).toNat = 3 := rfl
        omega
      rcases this with h | h | h | h <;> simp [h, List.lookup_cons] at hl
    have h := sw s (actsOk_mem sok.cb (actsOk_mem sok.pv.nxt (actsOk_mem sok.pv.dst trivial))) (by
      simp only [FlagRd.acts, runPA_cons, runPA_nil, aMem_run]
      rw [set_ne (by decide +kernel), set_ne (by decide +kernel), set_ne (by decide +kernel)])
    rw [if_neg h4] at h
    have e : caseOf [(0, trigAt 20), (1, trigAt 21), (2, trigAt 22), (3, trigAt 23)] S.fend (s (S.sv + 348)) = S.fend := by
      have := lookup_map (β := Nat × Stmt) (Prod.fst) [((0 : W), trigAt 20, S.case L 0), (1, trigAt 21, S.case L 1), (2, trigAt 22, S.case L 2), (3, trigAt 23, S.case L 3)] (s (S.sv + 348))
      rw [hl] at this
      simp only [List.map_cons, List.map_nil] at this
      rw [caseOf, this]; rfl
    rw [e] at h
    exact h
  · intro s c ha hs hl
    have := sw s ha hs
    have h4 : (s (S.sv + 348)).toNat < 4 := by
      have := lookup_mem' hl
      simp only [List.mem_cons, Prod.mk.injEq, List.not_mem_nil, or_false] at this
      rcases this with ⟨h, -⟩ | ⟨h, -⟩ | ⟨h, -⟩ | ⟨h, -⟩ <;> rw [h] <;> decide
    rw [if_pos h4] at this
    exact this
  · intro c hc
    simp only [List.mem_cons, List.not_mem_nil, or_false] at hc
    rcases hc with rfl | rfl | rfl | rfl
    · exact ⟨0, 0, 0, caseCode 0 (bp 2 rfl _ (.head _))⟩
    · exact ⟨0, 0, 0, caseCode 1 (bp 2 rfl _ (.tail _ (.head _)))⟩
    · exact ⟨0, 0, 0, caseCode 2 (bp 2 rfl _ (.tail _ (.tail _ (.head _))))⟩
    · exact ⟨0, 0, 0, caseCode 3 (bp 2 rfl _ (.tail _ (.tail _ (.tail _ (.head _)))))⟩

theorem fF : FuncCode L (trigAt 10) S.fend nptr [S.bv] (S.body L) := by
  refine ⟨⟨0, 0, bodyCode⟩, fendBlks_end (bp 0 rfl) (cell (by decide +kernel)) ?_ (by decide)⟩
  intro v hv
  rw [List.mem_singleton.1 hv]
  exact ⟨cell (by decide +kernel), by decide⟩

theorem gcaseCode (j : Nat) (hb : gcb j ∈ L.P.blks) {r k : Nat} : Code L r swEnd k (bitRdCase b 1 j) (trigAt (50 + j)) 0 :=
  .seq (m := swEnd) (.trig (placedCB_spec rfl) (placedAB_spec rfl) hb) .brk

theorem gswCode {r bb k : Nat} : Code L r bb k (.prim (SwRel L (fun s => s (sv + 348)) (cases0 4 (bitRdCase b 1)))) (trigAt 40) swEnd := by
  refine sw_code wf (val := fun s => s (sv + 348)) (cases := [(0, trigAt 50, bitRdCase b 1 0), (1, trigAt 51, bitRdCase b 1 1), (2, trigAt 52, bitRdCase b 1 2), (3, trigAt 53, bitRdCase b 1 3)]) ?_ ?_
  · exact sw4_runs wf (cell (by decide +kernel)) (bp 5 rfl) (.tail _ (.head _)) (fun r hr => xr r (List.mem_append_right _ hr)) (by decide) (by decide) (by simp [L, Layout.hide])
      (laid0.cellB (x := trigAt 44 + 4) (by decide +kernel)).1 (by decide) (by decide +kernel)
  · intro c hc
    simp only [List.mem_cons, List.not_mem_nil, or_false] at hc
    rcases hc with rfl | rfl | rfl | rfl
    · exact ⟨0, 0, 0, gcaseCode 0 (bp 6 rfl _ (.head _))⟩
    · exact ⟨0, 0, 0, gcaseCode 1 (bp 6 rfl _ (.tail _ (.head _)))⟩
    · exact ⟨0, 0, 0, gcaseCode 2 (bp 6 rfl _ (.tail _ (.tail _ (.head _))))⟩
    · exact ⟨0, 0, 0, gcaseCode 3 (bp 6 rfl _ (.tail _ (.tail _ (.tail _ (.head _)))))⟩

def gf : Nat → Stmt
  | 0 => vproc L ev 0xFFFFFFFF (trigAt 40) evA
  | 1 => .prim (SwRel L (fun s => s (sv + 348)) (cases0 4 (bitRdCase b 1)))
  | _ => cpBack L S.cpc T.e

theorem fG : FuncCode L G.e gend gptr [fr] (bitRdBody L ev sv S.cpc b fr 1 (trigAt 40) T.e) := by
  have hi : G.Into L := ⟨bp 4 rfl, sp 0 rfl, by rw [show G.rest = [] by decide +kernel]; simp⟩
  refine ⟨⟨0, 0, emitD_code (S := gS) (f := gf) (es := gES) ?_ (by decide +kernel) hi⟩, fendBlks_end (bp 3 rfl) (cell (by decide +kernel)) (fun v hv => ?_) (by simp)⟩
  · intro j b k x n m E h hi
    match j with
    | 0 => exact vpS_code wf (pv (by simp)) h hi
    | 1 =>
      simp only [gS, swS] at h
      split at h
      · rename_i hx
        cases h
        rw [hx]
        exact gswCode
      · cases h
    | _ + 2 => exact vpS_code wf (pv (by simp)) h hi
  · rw [List.mem_singleton.1 hv]
    exact ⟨cell (by decide +kernel), by decide⟩

theorem code2 : Code L retAt 0 0 ((c2 L).stmt L) M2.e haltAt :=
  emitD_code (S := fun _ => callS (c2 L00)) (f := fun _ => (c2 L).stmt L) (es := .site 0) (fun j b k x n m E h hi => callS_code (c := c2 L) wf fG (by decide) h hi) (by decide +kernel)
    ⟨by rw [show (emitD retAt (fun _ => callS (c2 L00)) (.site 0) 0 0 haltAt 60 20).blks = [] by decide +kernel]; simp, sp 1 rfl,
     by rw [show (emitD retAt (fun _ => callS (c2 L00)) (.site 0) 0 0 haltAt 60 20).rest = [] by decide +kernel]; simp⟩
theorem code1 : Code L retAt 0 0 ((c1 L).stmt L) M1.e M2.e :=
  emitD_code (S := fun _ => callS (c1 L00)) (f := fun _ => (c1 L).stmt L) (es := .site 0) (fun j b k x n m E h hi => callS_code (c := c1 L) wf fF (by decide) h hi) (by decide +kernel)
    ⟨by rw [show (emitD retAt (fun _ => callS (c1 L00)) (.site 0) 0 0 M2.e 60 40).blks = [] by decide +kernel]; simp, sp 2 rfl,
     by rw [show (emitD retAt (fun _ => callS (c1 L00)) (.site 0) 0 0 M2.e 60 40).rest = [] by decide +kernel]; simp⟩

/-- Both results, for any offset.  With an offset above 3 the first call gives what was left in its result variable, here 7. -/
theorem run (iv x : W) : ∃ m', Reaches ⟨mem iv x, M1.e⟩ ⟨m', haltAt⟩ ∧
    m' o1 = (if iv.toNat < 4 then if x.toNat / 2 ^ (8 * iv.toNat) % 256 ≠ 0 then 1 else 0 else 7) ∧
    m' o2 = (if iv.toNat < 4 ∧ x.getLsbD (1 + 8 * iv.toNat) = true then 1 else 0) ∧ m' cpAddr = 5 := by
  have hl := laid iv
  have hvv : ∀ a, L.cell a → ∀ m, L.view m a = m a := fun a ha m => Layout.view_at ha.2
  have fr : ∀ z, cellQ z = true ∧ L0.Free exBuf 7 z → L.view (mem iv x) z = match (pinHoles X ++ holes x).find? (fun r => r.1 == z) with | some r => r.2 | none => 0 := by
    intro z hz
    rw [hvv _ (cell hz.1)]
    exact hl.free hz.2 (by decide) _
  have vv : ∀ k : Nat, (h : k < 7) → L.view (mem iv x) (exVar k + 348) = (vs iv)[k]'h := by
    intro k h
    have : ∀ k < 7, cellQ (exVar k + 348) = true := by decide +kernel
    rw [hvv _ (cell (this k h))]
    exact (hl.ok _).2 k h
  have hc : ∀ z ∈ [S.cpc + 348, S.cpc + 352, ev + 352, D], cellQ z = true ∧ L0.Free exBuf 7 z := by decide +kernel
  have ho := ok iv x
  have fr0 : ∀ z w, (pinHoles X ++ holes0).find? (fun r => r.1 == z) = some (z, w) → cellQ z = true ∧ L0.Free exBuf 7 z → L.view (mem iv x) z = w := by
    intro z w h hz
    rw [fr z hz, holes, ← List.append_assoc, List.find?_append, h]
    rfl
  have i1 : L.view (mem iv x) (S.cpc + 348) = 5 := fr0 _ _ (by decide +kernel) (hc _ (by simp))
  have i2 : L.view (mem iv x) (S.cpc + 352) = pmod .set := fr0 _ _ (by decide +kernel) (hc _ (by simp))
  have i3 : L.view (mem iv x) (ev + 352) = pmod .set := fr0 _ _ (by decide +kernel) (hc _ (by simp))
  have i4 : L.view (mem iv x) (S.bv + 348) = 7 := by
    rw [hvv _ (cell (by decide +kernel))]
    have := (hl.hole (show fretBlk S.bv ∈ L0.P.blks from bp 0 rfl _ (.head _)) (o := 348) (by decide) (by decide +kernel) (by decide) (pinHoles X ++ holes x)).2
    refine this.trans ?_
    rw [holes, ← List.append_assoc, List.find?_append, show (pinHoles X ++ holes0).find? (fun r => r.1 == (fretBlk S.bv).t + 348) = some (S.bv + 348, 7) by decide +kernel]
    rfl
  have i5 : L.view (mem iv x) D = x := (fr _ (hc _ (by simp))).trans (by rfl)
  have i7 : L.view (mem iv x) (e + 348) = epd D := vv 0 (by decide)
  have i8 : L.view (mem iv x) (i + 348) = iv := vv 1 (by decide)
  generalize hs : L.view (mem iv x) = s at *
  have ed : epdAddr (epd D) = D := by decide +kernel
  have hD : ¬ L.priv D ∧ D ∉ nptr :: (S.bv + 344) :: args.map Prod.fst ++ S.own := ⟨(cell (by decide +kernel)).2, by decide +kernel⟩
  have hD2 : D ∉ gptr :: (ExFlagRead.fr + 344) :: args2.map Prod.fst ++ bitRdOwn ev S.cpc b ExFlagRead.fr := by decide +kernel
  obtain ⟨s1, x1, k1, f1⟩ := C32_bool (e := .var e) (i := .var i) (s := s) (args := args) (o := o1) (back := M2.e) wf sok (.head _) (.tail _ (.head _))
    (callOkB_spec (cell := cellQ) (fun x h => cell h) vars (by decide +kernel)) fF (by decide +kernel) i2 (by decide +kernel) (by decide +kernel) (by simp only [Src.valM, i7, ed]; exact hD)
  simp only [Src.valM, i7, i8, ed, i5, i4, i1] at k1
  have g1 : s1 (S.cpc + 348) = 5 := by rw [f1 _ (by decide +kernel), i1]
  have g2 : s1 (S.cpc + 352) = pmod .set := by rw [f1 _ (by decide +kernel), i2]
  have g3 : s1 (ev + 352) = pmod .set := by rw [f1 _ (by decide +kernel), i3]
  have g5 : s1 D = x := by rw [f1 _ (by decide +kernel), i5]
  have g7 : s1 (e + 348) = epd D := by rw [f1 _ (by decide +kernel), i7]
  have g8 : s1 (i + 348) = iv := by rw [f1 _ (by decide +kernel), i8]
  obtain ⟨s2, x2, k2, k3, f2⟩ := C32_bit (e := .var e) (i := .var i) (s := s1) (args := args2) (o := o2) (back := haltAt) (q := 1) wf ⟨pv (by simp), pv (by simp), cell (by decide +kernel), by decide +kernel, by decide +kernel⟩
    (by decide) (vars _ (by decide)) (cell (by decide +kernel)) (cell (by decide +kernel)) (by decide +kernel) (.head _) (.tail _ (.head _))
    (callOkB_spec (cell := cellQ) (fun x h => cell h) vars (by decide +kernel)) fG (by decide +kernel) g3 g2 (by decide +kernel) (by decide +kernel)
    (by simp only [Src.valM, g7, ed]; exact ⟨hD.1, hD2⟩)
  simp only [Src.valM, g7, g8, ed, g5, g1] at k2 k3
  obtain ⟨m', rr, -, hv'⟩ := ((C25_structured wf x1 code1).trans (C25_structured wf x2 code2)) _ ho hs
  have hm : ∀ z, cellQ z = true → m' z = s2 z := fun z hz => by rw [← Layout.view_at (L := L) (m := m') (cell hz).2, hv']
  refine ⟨m', rr, ?_, by rw [hm _ (by decide +kernel), k2], by rw [hm _ (by decide +kernel), k3]⟩
  rw [hm _ (by decide +kernel), f2 _ (by decide +kernel)]
  by_cases h4 : iv.toNat < 4
  · rw [if_pos h4] at k1 ⊢; exact k1.1
  · rw [if_neg h4] at k1 ⊢; exact k1.1

end ExFlagRead

end Eud.SC
