import Verif.Ex.ByteWrite
import Verif.Lib.CpWriter
/-
Example for C37: `w.writebyte(x); w.writebyte(y); w.writebyte(y); w.writebyte(0x21); w.writebyte(x); w.flushdword()` with a `CPByteWriter` in memory, for all values of the variables.
-/

namespace Eud.SC

namespace ExCpWriter

def wfe : Nat := trigAt 0
def ffe : Nat := trigAt 30
/-- The first of the dwords that are written to. -/
def D : Nat := 0xE020000
def tbl : Nat := 0xE010000
def x : Nat := exVar 0
def y : Nat := exVar 1

/-- The objects of the writer. -/
def W0 : CpW where
  sub := 0xE003000
  b := 0xE001000
  b1 := 0xE003010
  b2 := 0xE003020
  b3 := 0xE003030
  v := 0xE002000
  wnp := fendPtr [] wfe
  fnp := fendPtr [] ffe
  wfe := wfe
  ffe := ffe
  wfs := trigAt 10
  ffs := 0
  n := fun _ => wfe
  nb := wfe
  nf := 0
  cpc := 0xE000000
  cnd := 0xE004000

def L00 : Layout := ⟨⟨[], [], []⟩, [], []⟩

/-! `flushdword` -/

def tailF : Stmt := .seq (.seqs ((List.range' 8 24).map W0.bit)) W0.fin
def T : Emitted := emitD ffe (fun _ _ _ _ _ _ => none) (.base tailF) 0 0 ffe 31 0
def fS : Nat → (b k x n m : Nat) → Option Emitted := fun _ => vpS W0.b T.e [aMem (W0.b + 344) .set 13]
def fES : ES := .seq (.base (.trig [] [aCp .set 0 0xFFFFFFFF])) (.seq (.base (.ite .skip [cMem W0.sub .exactly 0] .ret .skip)) (.seq (.site 0) (.base tailF)))
def F : Emitted := emitD ffe fS fES 0 0 ffe 31 0

/-! `writebyte` -/

def fl (L : Layout) (W : CpW) (back : Nat) : Site := ⟨F.e, ffe, W0.fnp, back, W.flBody L, [], []⟩
def C3r : Emitted := emitD wfe (fun _ => callS (fl L00 W0 wfe)) (.seq (.site 0) (.base .brk)) wfe 0 0 25 0

/-- The writer. -/
def W : CpW := { W0 with nf := T.e, ffs := F.e, n := fun i => if i = 3 then C3r.e else wfe }

def acts (i : Nat) : List PA := if i = 3 then [aMem (W.v + 344) .set (epd (W.bd 3))] else [aMem (W.v + 344) .set (epd (W.bd i)), aMem W.sub .add 1]
def cS (i : Nat) : Nat → (b k x n m : Nat) → Option Emitted
  | 0 => vpS W.v (W.n i) (acts i)
  | _ => callS (fl L00 W wfe)
def cES (i : Nat) : ES := if i = 3 then .seq (.site 0) (.seq (.site 1) (.base .brk)) else .seq (.site 0) (.base .brk)
def C (i : Nat) : Emitted := emitD wfe (cS i) (cES i) wfe 0 0 (20 + i + (if i = 3 then 2 else 0)) 0
def swBlks : List SBlk := sw4Blks W.sub (trigAt 10) (trigAt 11) (trigAt 12) (trigAt 13) (trigAt 14) tbl wfe
def tab : List (Nat × Nat) := sw4Tab tbl (C 0).e (C 1).e (C 2).e (C 3).e

/-! The program. -/

def wr (L : Layout) (back : Nat) (x : Src) : Site := ⟨trigAt 10, wfe, W.wnp, back, W.wrBody L, [], [(W.v + 348, x)]⟩

/-- What is written: two variables and a constant. -/
def src : Nat → Src
  | 0 => .var x
  | 1 => .var y
  | 2 => .var y
  | 3 => .const 0x21
  | _ => .var x
/-- Where the calls go on. -/
def bk (j : Nat) : Nat := seqAt (14 - j)
def ops : List (CpW.Op × Nat) := (List.range 5).map (fun j => (.write (src j), bk j)) ++ [(.flush, haltAt)]
def mS (j : Nat) : (b k x n m : Nat) → Option Emitted := if j < 5 then callS (wr L00 (bk j) (src j)) else callS (fl L00 W haltAt)
def esM : ES := .seq (.site 0) (.seq (.site 1) (.seq (.site 2) (.seq (.site 3) (.seq (.site 4) (.seq (.site 5) (.base .skip))))))
def eM : Emitted := emitD retAt mS esM 0 0 haltAt 70 10

/-! Memory -/

def parts : List (List SBlk) := [fendBlks [] wfe, swBlks, (C 0).blks, (C 1).blks, (C 2).blks, (C 3).blks, fendBlks [] ffe, F.blks, eM.blks]
def sparts : List (List Blk) := [(C 3).seqs, eM.seqs]
def rests : List (List (Nat × Nat)) := [[(trigAt 10, wfe)], F.rest]
def L0 : Layout := ⟨⟨parts.flatten, sparts.flatten, (List.range 2).map exVar⟩, rests.flatten, []⟩
def pvs : List Nat := [W.b, W.v]
def X : List (Nat × Nat) := pvs.flatMap pvPins ++ tab
def jmp : Nat := trigAt 14
def L : Layout := (L0.pin X).hide (jmp + 4)

def vs (xv yv : BitVec 32) : List (BitVec 32) := [xv, yv]
/-- The writer as its constructor makes it; the current player is at `D`. -/
def holes : List (Nat × BitVec 32) :=
  [(cpAddr, epd D), (W.cpc + 348, epd D), (W.cnd + 8, epd D), (W.b + 348, 13), (W.b1, 13), (W.b2, 13), (W.b3, 13), (W.b + 352, pmod .set), (W.v + 352, pmod .set), (D, 1), (D + 4, 2), (D + 8, 3)]
def mem (xv yv : BitVec 32) : Mem := L0.mem exBuf (vs xv yv) (pinHoles X ++ holes)

theorem laid (xv yv : BitVec 32) : L0.Laid exBuf (vs xv yv) := Layout.laidB_spec (show L0.laidB exBuf 2 = true by decide +kernel)
theorem pins : L0.pinB exBuf 2 X = true := by decide +kernel
theorem laid0 : L0.Laid exBuf (vs 0 0) := laid 0 0
theorem wf : L.Wf := (laid0.pinWf pins).hide (Layout.freeB_spec (by decide +kernel))
theorem ok (xv yv : BitVec 32) : L.Ok (mem xv yv) := by
  have h := (laid xv yv).pinOk pins holes
  exact ⟨h.prog, h.mask, h.rest⟩
def cellQ (x : Nat) : Bool := L0.pinCellB X x && x != jmp + 4
theorem cell {x : Nat} (h : cellQ x = true) : L.cell x := by
  simp only [cellQ, Bool.and_eq_true, bne_iff_ne, ne_eq] at h
  have hc := laid0.pinCellB h.1
  exact ⟨hc.1, by rw [L, Layout.hide_priv]; exact fun e => e.elim h.2 hc.2⟩
theorem pv {v : Nat} (h : v ∈ pvs) : PVar L v := by
  have h1 : ∀ v ∈ pvs, (∀ r ∈ pvPins v, r ∈ X) ∧ (∀ o ∈ [4, 344, 348, 352], L0.Free exBuf 2 (v + o) ∧ ∀ r ∈ X, v + o ≠ r.1 + 4) ∧ jmp + 4 ∉ [v + 4, v + 344, v + 348, v + 352] := by decide +kernel
  exact (PVar.pin laid0 (h1 v h).1 (h1 v h).2.1).hide (h1 v h).2.2
theorem vars : ∀ v ∈ (List.range 2).map exVar, v ∈ L.P.vars := fun _ h => h

theorem bp {l : List SBlk} (k : Nat) (h : parts[k]? = some l) : ∀ b ∈ l, b ∈ L.P.blks := fun _ hb => List.mem_flatten.2 ⟨l, List.mem_of_getElem? h, hb⟩
theorem sp {l : List Blk} (k : Nat) (h : sparts[k]? = some l) : ∀ b ∈ l, b ∈ L.P.seqs := fun _ hb => List.mem_flatten.2 ⟨l, List.mem_of_getElem? h, hb⟩
theorem rp {l : List (Nat × Nat)} (k : Nat) (h : rests[k]? = some l) : ∀ r ∈ l, r ∈ L.rest := fun _ hb => List.mem_append_left _ (List.mem_flatten.2 ⟨l, List.mem_of_getElem? h, hb⟩)
theorem xr : ∀ r ∈ X, r ∈ L.rest := fun _ hr => List.mem_append_right _ hr

theorem into {E : Emitted} (k : Nat) (hk : parts[k]? = some E.blks) (hs : E.seqs = [] ∨ ∃ j : Nat, sparts[j]? = some E.seqs) (h3 : E.rest = [] ∨ ∃ j : Nat, rests[j]? = some E.rest) : E.Into L := by
  refine ⟨bp k hk, ?_, ?_⟩
  · rcases hs with e | ⟨j, e⟩
    · rw [e]; simp
    · exact sp j e
  · rcases h3 with e | ⟨j, e⟩
    · rw [e]; simp
    · exact rp j e

/-! Code -/

theorem fend {fe : Nat} (k : Nat) (h : parts[k]? = some (fendBlks [] fe)) (hc : cellQ (fe + 4) = true) : FuncEnd L fe (fe + 4) [] := fendBlks_end (frets := []) (bp k h) (cell hc) (by simp) (by simp)

theorem flEq : W.flBody L = fES.stmt (fun _ => vproc L W.b 0xFFFFFFFF W.nf [aMem (W.b + 344) .set 13]) := by
  have e1 : W.bit = W0.bit := rfl
  have e2 : W.fin = W0.fin := rfl
  have e3 : W.sub = W0.sub := rfl
  unfold CpW.flBody fES tailF
  rw [e1, e2, e3]
  simp only [ES.stmt]

theorem fF : FuncCode L W.ffs W.ffe W.fnp [] (W.flBody L) := by
  refine ⟨⟨0, 0, ?_⟩, fend 6 rfl (by decide +kernel)⟩
  rw [flEq]
  show Code L ffe 0 0 _ (emitD ffe fS fES 0 0 ffe 31 0).e ffe
  exact emitD_code (S := fS) (f := fun _ => vproc L W.b 0xFFFFFFFF W.nf [aMem (W.b + 344) .set 13]) (es := fES) (fun j b k x n m E h hi => vpS_code wf (pv (by simp [pvs])) h hi) (by decide +kernel)
    (into 7 rfl (.inl (by decide +kernel)) (.inr ⟨1, rfl⟩))

theorem cC (i : Nat) (h1 : (emitG wfe (cS i) (cES i) wfe 0 0 (20 + i + (if i = 3 then 2 else 0)) 0).isSome = true) (hi : (C i).Into L) :
    Code L wfe wfe 0 ((cES i).stmt fun j => match j with | 0 => vproc L W.v 0xFFFFFFFF (W.n i) (acts i) | _ => (fl L W wfe).stmt L) (C i).e 0 := by
  refine emitD_code (S := cS i) (fun j b k x n m E h hi => ?_) h1 hi
  match j with
  | 0 => exact vpS_code wf (pv (by simp [pvs])) h hi
  | _ + 1 => exact callS_code (c := fl L W wfe) wf fF (by intro r h; cases h) h hi

theorem swCode {b k : Nat} : Code L wfe b k (W.wrBody L) (trigAt 10) wfe := by
  refine sw_code wf (val := fun s => s W.sub) (cases := [(0, (C 0).e, W.wrCase L 0), (1, (C 1).e, W.wrCase L 1), (2, (C 2).e, W.wrCase L 2), (3, (C 3).e, W.wrCase L 3)]) ?_ ?_
  · exact sw4_runs wf (cell (by decide +kernel)) (bp 1 rfl) (rp 0 rfl _ (.head _)) (fun r hr => xr r (List.mem_append_right _ hr)) (by decide) (by decide) (by simp [L, Layout.hide, jmp])
      (laid0.cellB (x := jmp + 4) (by decide +kernel)).1 (by decide) (by decide +kernel)
  · intro c hc
    simp only [List.mem_cons, List.not_mem_nil, or_false] at hc
    rcases hc with rfl | rfl | rfl | rfl
    · exact ⟨0, wfe, 0, cC 0 (by decide +kernel) (into 2 rfl (.inl (by decide +kernel)) (.inl (by decide +kernel)))⟩
    · exact ⟨0, wfe, 0, cC 1 (by decide +kernel) (into 3 rfl (.inl (by decide +kernel)) (.inl (by decide +kernel)))⟩
    · exact ⟨0, wfe, 0, cC 2 (by decide +kernel) (into 4 rfl (.inl (by decide +kernel)) (.inl (by decide +kernel)))⟩
    · exact ⟨0, wfe, 0, cC 3 (by decide +kernel) (into 5 rfl (.inr ⟨0, rfl⟩) (.inl (by decide +kernel)))⟩

theorem fW : FuncCode L W.wfs W.wfe W.wnp [] (W.wrBody L) := ⟨⟨0, 0, swCode⟩, fend 0 rfl (by decide +kernel)⟩

theorem wok : W.Ok L where
  wf := wf
  pb := pv (by simp [pvs])
  pv := pv (by simp [pvs])
  cel := by
    have : ∀ x ∈ W.own, cellQ x = true := by decide +kernel
    exact fun x hx => cell (this x hx)
  nd := by decide +kernel
  eb := by decide
  lt := by decide
  fw := fW
  ff := fF

def prog : Stmt := .seqs (ops.map fun p => p.1.stmt L W p.2)

theorem code : Code L retAt 0 0 prog eM.e haltAt := by
  refine emitD_code (S := mS) (f := fun j => if j < 5 then (wr L (bk j) (src j)).stmt L else (fl L W haltAt).stmt L) (es := esM) ?_ (by decide +kernel) (into 8 rfl (.inr ⟨1, rfl⟩) (.inl (by decide +kernel)))
  intro j b k x n m E h hi
  unfold mS at h
  by_cases hj : j < 5
  · rw [if_pos hj] at h ⊢
    exact callS_code (c := wr L (bk j) (src j)) wf fW (by intro r h; cases h) h hi
  · rw [if_neg hj] at h ⊢
    exact callS_code (c := fl L W haltAt) wf fF (by intro r h; cases h) h hi

/-! The run -/

theorem init (xv yv : BitVec 32) : CpW.Rep W ⟨[], epd D, L.view (mem xv yv)⟩ (L.view (mem xv yv)) ∧ L.view (mem xv yv) (x + 348) = xv ∧ L.view (mem xv yv) (y + 348) = yv ∧ L.view (mem xv yv) (D + 8) = 3 := by
  have hl := laid xv yv
  have hvv : ∀ a, L.cell a → ∀ m, L.view m a = m a := fun a ha m => Layout.view_at ha.2
  have fr : ∀ z, cellQ z = true ∧ L0.Free exBuf 2 z → L.view (mem xv yv) z = match (pinHoles X ++ holes).find? (fun r => r.1 == z) with | some r => r.2 | none => 0 := by
    intro z hz
    rw [hvv _ (cell hz.1)]
    exact hl.free hz.2 (by decide) _
  have vv : ∀ k : Nat, (h : k < 2) → L.view (mem xv yv) (exVar k + 348) = (vs xv yv)[k]'h := by
    intro k h
    have : ∀ k < 2, cellQ (exVar k + 348) = true := by decide +kernel
    rw [hvv _ (cell (this k h))]
    exact (hl.ok _).2 k h
  have hc : ∀ z ∈ [W.sub, W.b + 348, W.b1, W.b2, W.b3, W.b + 352, W.v + 352, W.cpc + 348, W.cnd + 8, cpAddr, D + 8], cellQ z = true ∧ L0.Free exBuf 2 z := by decide +kernel
  refine ⟨⟨⟨fun i hi => ?_, ⟨?_, ?_, ?_⟩, ⟨?_, ?_⟩, fun _ _ => rfl⟩, by simp, ?_⟩, vv 0 (by decide), vv 1 (by decide), ?_⟩
  · have hi4 : i = 0 ∨ i = 1 ∨ i = 2 ∨ i = 3 := by omega
    rcases hi4 with rfl | rfl | rfl | rfl
    · exact (fr (W.b + 348) (hc _ (by simp))).trans (show _ = (13 : BitVec 32) by decide +kernel)
    · exact (fr W.b1 (hc _ (by simp))).trans (show _ = (13 : BitVec 32) by decide +kernel)
    · exact (fr W.b2 (hc _ (by simp))).trans (show _ = (13 : BitVec 32) by decide +kernel)
    · exact (fr W.b3 (hc _ (by simp))).trans (show _ = (13 : BitVec 32) by decide +kernel)
  · exact (fr _ (hc _ (by simp))).trans (show _ = epd D by decide +kernel)
  · exact (fr _ (hc _ (by simp))).trans (show _ = epd D by decide +kernel)
  · exact (fr _ (hc _ (by simp))).trans (show _ = epd D by decide +kernel)
  · exact (fr _ (hc _ (by simp))).trans (show _ = pmod .set by decide +kernel)
  · exact (fr _ (hc _ (by simp))).trans (show _ = pmod .set by decide +kernel)
  · exact (fr _ (hc _ (by simp))).trans (show _ = (0 : BitVec 32) by decide +kernel)
  · exact (fr _ (hc _ (by simp))).trans (show _ = (3 : BitVec 32) by decide +kernel)

theorem srcOk {v : Nat} (h : v ∈ [x, y]) : ∀ w, Src.var v = .var w → w ∈ L.P.vars ∧ w + 348 ∉ W.own := by
  rintro w hw
  cases hw
  have : ∀ v ∈ [x, y], v ∈ (List.range 2).map exVar ∧ v + 348 ∉ W.own := by decide +kernel
  exact ⟨vars _ (this _ h).1, (this _ h).2⟩

/-- Two dwords have gone out, the second one filled up; the third one is as before, and the current player is at it. -/
theorem run (xv yv : BitVec 32) : ∃ m', Reaches ⟨mem xv yv, eM.e⟩ ⟨m', haltAt⟩ ∧ m' D = CpW.dwOf [xv, yv, yv, 0x21] ∧ m' (D + 4) = CpW.dwOf [xv] ∧ m' (D + 8) = 3 ∧ m' cpAddr = epd (D + 8) := by
  obtain ⟨h0, hx, hy, hD⟩ := init xv yv
  generalize hs : L.view (mem xv yv) = s at *
  have ed : epdAddr (epd D) = D := by decide +kernel
  have ed4 : epdAddr (epd D + 1) = D + 4 := by decide +kernel
  have cD : ∀ z ∈ [D, D + 4], L.cell z ∧ z ∉ W.own := by
    have : ∀ z ∈ [D, D + 4], cellQ z = true ∧ z ∉ W.own := by decide +kernel
    exact fun z hz => ⟨cell (this z hz).1, (this z hz).2⟩
  have hd := CpW.C37_cpwriter_history wok ops h0 (by decide) (by
    refine ⟨⟨srcOk (by simp), ?_⟩, ⟨srcOk (by simp), ?_⟩, ⟨srcOk (by simp), ?_⟩, ⟨fun v h => (by cases h), ?_⟩, ⟨srcOk (by simp), ?_⟩, ?_, trivial⟩
    · exact fun h => absurd h (by simp)
    · exact fun h => absurd h (by simp [CpW.Op.spec, CpW.St.write])
    · exact fun h => absurd h (by simp [CpW.Op.spec, CpW.St.write])
    · intro _
      show L.cell (epdAddr (epd D)) ∧ epdAddr (epd D) ∉ W.own
      rw [ed]; exact cD _ (by simp)
    · exact fun h => absurd h (by simp [CpW.Op.spec, CpW.St.write, CpW.St.out])
    · show L.cell (epdAddr (epd D + 1)) ∧ epdAddr (epd D + 1) ∉ W.own
      rw [ed4]; exact cD _ (by simp))
  obtain ⟨s', xe, h'⟩ := hd
  have e : (ops.map Prod.fst).foldl CpW.Op.spec ⟨[], epd D, s⟩ = ⟨[], epd D + 1 + 1, (s.set D (CpW.dwOf [xv, yv, yv, 0x21])).set (D + 4) (CpW.dwOf [xv])⟩ := by
    have hx' : ∀ w, (s.set D w) (x + 348) = xv := fun w => by rw [set_ne (by decide), hx]
    show CpW.St.flush (((CpW.St.out ⟨[s (x + 348), s (y + 348), s (y + 348)], epd D, s⟩ [s (x + 348), s (y + 348), s (y + 348), 0x21])).write ((s.set (epdAddr (epd D)) (CpW.dwOf [s (x + 348), s (y + 348), s (y + 348), 0x21])) (x + 348))) = _
    rw [ed, hx', hx, hy]
    simp only [CpW.St.out, CpW.St.write, CpW.St.flush, List.length_nil, List.nil_append, show ((0 : Nat) = 3) = False by simp, if_false, List.cons_ne_nil, ed, ed4]
  rw [e] at h'
  obtain ⟨m', rr, -, hv'⟩ := C25_structured wf xe code _ (ok xv yv) hs
  have hm : ∀ z, cellQ z = true → m' z = s' z := fun z hz => by rw [← Layout.view_at (L := L) (m := m') (cell hz).2, hv']
  refine ⟨m', rr, ?_, ?_, ?_, ?_⟩
  · rw [hm _ (by decide +kernel), h'.vis _ (by decide +kernel)]
    simp only [get_set, if_neg (show ¬ D = D + 4 by omega), if_true]
  · rw [hm _ (by decide +kernel), h'.vis _ (by decide +kernel)]
    simp only [get_set, if_true]
  · rw [hm _ (by decide +kernel), h'.vis _ (by decide +kernel)]
    simp only [get_set, if_neg (show ¬ D + 8 = D + 4 by omega), if_neg (show ¬ D + 8 = D by omega)]
    exact hD
  · rw [hm _ (by decide +kernel), h'.cp.1]
    show epd D + 1 + 1 = _
    decide +kernel

end ExCpWriter

end Eud.SC
