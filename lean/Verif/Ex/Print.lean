import Verif.Ex.ByteRw
import Verif.Lib.PrintList
/-
Example for C57: `o << f_dbstr_adddw(x, n); o << f_dbstr_addptr(o, n); o << f_dbstr_addstr(o, y)` in memory, for all numbers, all strings and all alignments that fit. The memory also has the triggers of the example for C58 (PrintAll.lean).
-/

namespace Eud.SC

namespace ExPrint

open ExRead (tabBlks tabBlks_mem)
open ExRepMov (T)
open ExByteRw (rend A cpc wv tbl qb rt br D R RM WM G noS eD dR tR eR dW tW eW swEnd swS esW eB es0 acts0 eC0 esC eC1 eC2 eC3 eK L00 sR sW sB readS wcS swBlks tab4 rdBlk csBlk notInt farInt farEpd byte_far posB_eq)

def x : Nat := exVar 3
def y : Nat := exVar 4
def n : Nat := exVar 5
def o : Nat := exVar 6

/-! The divisions by 10 and 16 share their result variables with the division by 4. -/

def D10 : Div4 := ⟨trigAt 88, trigAt 87, seqAt 31, trigAt 172, fendPtr [trigAt 87, trigAt 88] (trigAt 172)⟩
def e10 : Emitted := emitD D10.fe noS (.base (divFn D10.a D10.q D10.a 10)) 0 0 D10.fe 173 31
def D16 : Div4 := ⟨trigAt 88, trigAt 87, seqAt 32, trigAt 216, fendPtr [trigAt 87, trigAt 88] (trigAt 216)⟩
def e16 : Emitted := emitD D16.fe noS (.base (divFn D16.a D16.q D16.a 16)) 0 0 D16.fe 217 32
def sD (d : Div4) (k back v q r : Nat) : Site := ⟨d.fs, d.fe, d.np, back, divFn d.a d.q d.a k, [(d.q, q + 348), (d.a, r + 348)], [(d.a + 348, .var v)]⟩

/-! The subroutines -/

def P : DecPr := ⟨fun i => exVar (11 + i), fun i => exVar (22 + i), trigAt 250, D10, fun i => seqAt (50 + 2 * (9 - i)), fun i => trigAt (251 + 3 * i), 0⟩
def pS (j : Nat) : (b k x n m : Nat) → Option Emitted :=
  if j < 10 then callS (sD D10 10 (P.bd j) (P.n j) (P.n (j + 1)) (P.c j)) else callS (sB L00 (P.bw (j - 10)) (P.c (j - 10)))
def esDgt (i : Nat) : ES := .seq (.site i) (.base (.asg [⟨P.c i + 348, .add, .const 48⟩]))
def esWrt (i : Nat) : ES := .seq (.site (10 + i)) (.base (.trig [] [aMem (P.fe + 348) .add 1]))
def esLev : Nat → ES
  | 0 => .seq (esDgt 9) (esWrt 9)
  | k + 1 => .seq (esDgt (8 - k)) (.seq (.ite (.base .skip) [cMem (P.n (9 - k) + 348) .exactly 0] (.base .skip) (esLev k)) (esWrt (8 - k)))
def eP : Emitted := emitD P.fe pS (esLev 9) 0 0 P.fe 251 40

def H : HexPr := ⟨fun i => exVar (32 + i), fun i => exVar (41 + i), trigAt 280, D16, fun i => if i = 7 then trigAt 289 else seqAt (84 - i), fun i => trigAt (280 + i), 0⟩
def hS (j : Nat) : (b k x n m : Nat) → Option Emitted :=
  if j < 8 then callS (sD D16 16 (H.bd j) (H.n j) (H.n (j + 1)) (H.c j)) else callS (sB L00 (H.bw (j - 8)) (H.c (j - 8)))
def esDivs : Nat → ES
  | 0 => .base .skip
  | k + 1 => .seq (.site (7 - k)) (esDivs k)
def esOuts : Nat → ES
  | 0 => .base .skip
  | k + 1 => .seq (.base (.trig [cMem (H.c k + 348) .atLeast 58] [aMem (H.c k + 348) .add 7])) (.seq (.site (8 + k)) (esOuts k))
def esH : ES := .seq (esDivs 8) (.seq (.base (.trig [] ((List.range 8).map fun i => aMem (H.c i + 348) .add 48))) (esOuts 8))
def eH : Emitted := emitD H.fe hS esH 0 0 H.fe 281 70

def S : StrPr := ⟨exVar 49, trigAt 291, trigAt 290, seqAt 86, trigAt 290, trigAt 293, 0, 0⟩
def eS1 : Emitted := emitD 0 (fun _ => readS S.jump (S.b + 348)) (.site 0) 0 0 S.jump 292 86
def esS2 : ES := .seq (.site 0) (.base (.trig [] [aMem (S.fe + 348) .add 1]))
def eS2 : Emitted := emitD 0 (fun _ => callS (sB L00 S.k2 S.b)) esS2 0 0 (trigAt 292) 293 86
def jBlk : SBlk := ⟨S.jump, ⟨S.jc.map PC.c, S.ja.map PA.a⟩, none, false⟩
def fBlk (fe : Nat) (as : List PA) : SBlk := ⟨fe, ⟨[], as.map PA.a⟩, none, false⟩

/-! The functions -/

/-- The use of a subroutine that starts at `fs`. -/
def subS (fs back : Nat) (gs : List Asg) (_b _k x n m : Nat) : Option Emitted :=
  if x = back then match emitAsg fs m gs with
    | some (e, Q) => some ⟨e, n, m + Q.length, [], Q, []⟩
    | none => none
  else none

def F1 : PrFn := ⟨fendPtr [trigAt 294] (trigAt 295), seqAt 89, trigAt 295, trigAt 294, exVar 50, exVar 51, seqAt 88, seqAt 87, 0⟩
def F2 : PrFn := ⟨fendPtr [trigAt 297] (trigAt 298), seqAt 92, trigAt 298, trigAt 297, exVar 52, exVar 53, seqAt 91, seqAt 90, 0⟩
def F3 : PrFn := ⟨fendPtr [trigAt 300] (trigAt 301), seqAt 96, trigAt 301, trigAt 300, exVar 54, exVar 55, seqAt 95, seqAt 93, 0⟩
def g1 : List Asg := [⟨P.fe + 4, .set, .const (BitVec.ofNat 32 (trigAt 296))⟩, ⟨P.fe + 344, .set, .const (epd (F1.dst + 348))⟩, ⟨P.n 0 + 348, .set, .var F1.num⟩]
def g2 : List Asg := [⟨F2.dst + 348, .add, .const 8⟩, ⟨H.fe + 4, .set, .const (BitVec.ofNat 32 (trigAt 299))⟩, ⟨H.n 0 + 348, .set, .var F2.num⟩]
def g3 : List Asg := [⟨S.fe + 4, .set, .const (BitVec.ofNat 32 (trigAt 302))⟩, ⟨S.fe + 344, .set, .const (epd (F3.dst + 348))⟩]
def fS (F : PrFn) (mid : (b k x n m : Nat) → Option Emitted) : Nat → (b k x n m : Nat) → Option Emitted
  | 0 => callS (sW L00 F.k1 F.dst)
  | 1 => mid
  | 2 => wcS F.k2 0
  | _ => callS (sR L00 (seqAt 94) F.num)
def esF (F : PrFn) (mid : ES) : ES := .seq (.site 0) (.seq mid (.seq (.site 2) (.base (retVar F.r F.dst))))
def eF1 : Emitted := emitD F1.fe (fS F1 (subS (seqAt 69) (trigAt 296) g1)) (esF F1 (.site 1)) 0 0 F1.fe 296 87
def eF2 : Emitted := emitD F2.fe (fS F2 (subS (seqAt 85) (trigAt 299) g2)) (esF F2 (.site 1)) 0 0 F2.fe 299 90
def eF3 : Emitted := emitD F3.fe (fS F3 (subS (trigAt 292) (trigAt 302) g3)) (esF F3 (.seq (.site 3) (.site 1))) 0 0 F3.fe 302 93

/-! The program -/

def mid1 (L : Layout) : Stmt := P.sub L G F1.dst (.var F1.num) (trigAt 296)
def mid2 (L : Layout) : Stmt := H.sub L G F2.dst (.var F2.num) (trigAt 299)
def mid3 (L : Layout) : Stmt := S.mid L G F3 (seqAt 94) (trigAt 302)
def sF (L : Layout) (F : PrFn) (mid : Stmt) (back d v : Nat) : Site := ⟨F.fs, F.fe, F.np, back, F.body L G mid, [(F.r, o + 348)], [(F.dst + 348, .var d), (F.num + 348, .var v)]⟩
def mS : Nat → (b k x n m : Nat) → Option Emitted
  | 0 => callS (sF L00 F1 (mid1 L00) (seqAt 98) x n)
  | 1 => callS (sF L00 F2 (mid2 L00) (seqAt 97) o n)
  | _ => callS (sF L00 F3 (mid3 L00) haltAt o y)
def esM : ES := .seq (.site 0) (.seq (.site 1) (.site 2))
def eM : Emitted := emitD retAt mS esM 0 0 haltAt 303 97

/-! The printing of literals and of lists: `f_dbstr_print(x, "score: ", n, "core", hptr(n), ptr2s(y))` -/

def ret : Nat := exVar 57
def key : BitVec 8 := 0x77
def lit1 : List (BitVec 8) := [0x73, 0x63, 0x6F, 0x72, 0x65, 0x3A, 0x20]
def lit2 : List (BitVec 8) := [0x63, 0x6F, 0x72, 0x65]
/-- The place of the data of the literals. -/
def dat : Nat := 0xE021000
/-- The second literal is a part of the first one. -/
def lits : List (BitVec 8) × List Nat := findAll key [] [lit1, lit2]
def at1 : Nat := dat + 6
def at2 : Nat := dat + 5
def TL : LitPr := ⟨exVar 56, 0xE020000, trigAt 306, trigAt 303, trigAt 310, trigAt 304, 0, 0, 0x5A, 0xC3⟩
def tS : Nat → (b k x n m : Nat) → Option Emitted
  | 0 => readS TL.k1 (TL.b + 348)
  | _ => callS (sB L00 TL.k2 TL.b)
def esT : ES := .seq (.base TL.start) (.loop true (.base .skip) [cMem TL.cnt .atLeast 0x80000000]
  (.seq (.site 0) (.seq (.base (TL.backT R 0)) (.seq (.base (TL.backT R 1)) (.seq (.base (TL.backT R 2)) (.seq (.base (TL.backT R 3)) (.seq (.base (TL.decT R)) (.site 1))))))) (.base .skip))
def eT : Emitted := emitD TL.fe tS esT 0 0 TL.fe 304 100
def C : PrintCfg := ⟨P, H, S, TL, ret, 0, key⟩
/-- Counts in the range of `random.randrange`, keys with random upper bytes. -/
def a1 : BitVec 32 := 0x13000000
def a2 : BitVec 32 := 0x21234567
def gL (p : Nat) (a : BitVec 32) (back : Nat) : List Asg := [⟨TL.cont + 348, .set, .const a⟩, ⟨TL.cont + 380, .set, .const 0xABCD012D⟩, ⟨TL.cont + 412, .set, .const 0x123456B4⟩, ⟨R.rd + 4, .set, .const (BitVec.ofNat 32 (R.cs (p % 4)))⟩,
  ⟨R.rd + 348, .set, .const (epdOfQ (p / 4))⟩, ⟨TL.fe + 4, .set, .const (BitVec.ofNat 32 back)⟩]
def gD (back : Nat) : List Asg := [⟨P.fe + 4, .set, .const (BitVec.ofNat 32 back)⟩, ⟨P.fe + 344, .set, .const (epd (ret + 348))⟩, ⟨P.n 0 + 348, .set, .var n⟩]
def gH (back : Nat) : List Asg := [⟨ret + 348, .add, .const 8⟩, ⟨H.fe + 4, .set, .const (BitVec.ofNat 32 back)⟩, ⟨H.n 0 + 348, .set, .var n⟩]
def gS (back : Nat) : List Asg := [⟨S.fe + 4, .set, .const (BitVec.ofNat 32 back)⟩, ⟨S.fe + 344, .set, .const (epd (ret + 348))⟩]
def items : List PItem := [.lit at1 a1 0xABCD012D 0x123456B4 (seqAt 106), .dec (.var n) (seqAt 105), .lit at2 a2 0xABCD012D 0x123456B4 (seqAt 104), .hex (.var n) (seqAt 103), .strV y (seqAt 102) (seqAt 101)]
def lS : Nat → (b k x n m : Nat) → Option Emitted
  | 0 => callS (sW L00 (seqAt 107) x)
  | 1 => subS (trigAt 312) (seqAt 106) (gL at1 a1 (seqAt 106))
  | 2 => subS (seqAt 69) (seqAt 105) (gD (seqAt 105))
  | 3 => subS (trigAt 312) (seqAt 104) (gL at2 a2 (seqAt 104))
  | 4 => subS (seqAt 85) (seqAt 103) (gH (seqAt 103))
  | 5 => callS (sR L00 (seqAt 102) y)
  | 6 => subS (trigAt 292) (seqAt 101) (gS (seqAt 101))
  | _ => wcS haltAt 0
def esL : ES := .seq (.base (.asg [⟨ret + 348, .set, .var x⟩])) (.seq (.site 0) (.seq (.seq (.site 1) (.seq (.site 2) (.seq (.site 3) (.seq (.site 4) (.seq (.seq (.site 5) (.site 6)) (.base .skip))))))
  (.seq (.base (.asg [⟨ret + 348, .add, .const 11⟩])) (.site 7))))
def eL : Emitted := emitD retAt lS esL 0 0 haltAt 313 101

/-! Memory -/

def q2 (fe : Nat) : List SBlk := [⟨fe, ⟨[], retActs [D.q, D.a]⟩, some D.q, false⟩]
def parts : List (List SBlk) := [rendBlk rend :: tabBlks A rend 0 T.trigs, [rdBlk, csBlk 0, csBlk 1, csBlk 2, csBlk 3], fendBlks [D.q, D.a] D.fe, eD.blks, fendBlks [] RM.fe, eR.blks, fendBlks [] WM.fe, eW.blks,
  fendBlks [] ExByteRw.W.fe, eB.blks, swBlks, eC0.blks, eC1.blks, eC2.blks, eC3.blks, eK.blks, q2 D10.fe, e10.blks, q2 D16.fe, e16.blks, [fBlk P.fe P.fin], eP.blks, [fBlk H.fe []], eH.blks, [jBlk, fBlk S.fe S.fin], eS1.blks, eS2.blks,
  fendBlks [F1.r] F1.fe, eF1.blks, fendBlks [F2.r] F2.fe, eF2.blks, fendBlks [F3.r] F3.fe, eF3.blks, [fBlk TL.fe TL.fin], eT.blks, eL.blks]
def sparts : List (List Blk) := [eD.seqs, eR.seqs, eW.seqs, e10.seqs, e16.seqs, eP.seqs, eH.seqs, eS2.seqs, eF1.seqs, eF2.seqs, eF3.seqs, eM.seqs, eT.seqs, eL.seqs]
def L0 : Layout := ⟨⟨parts.flatten, sparts.flatten, (List.range 58).map exVar⟩, (trigAt 133, swEnd) :: (eP.rest ++ eT.rest), []⟩
def X : List (Nat × Nat) := pvPins cpc ++ pvPins wv ++ tab4
def L : Layout := (L0.pin X).hide (trigAt 137 + 4)

def vs (xv yv nv : BitVec 32) : List (BitVec 32) := [0, 0, 0, xv, yv, nv, 0, 0, 0, 0, 0, 0, 0, 0, 0, 0, 0, 0, 0, 0, 0, 0, 0, 0, 0, 0, 0, 0, 0, 0, 0, 0, 0, 0, 0, 0, 0, 0, 0, 0, 0, 0, 0, 0, 0, 0, 0, 0, 0, 0, 0, 0, 0, 0, 0, 0, 0, 0]
/-- The cached player is 5; the reader is as `EUDByteReader()` makes it; the trigger `jump` goes on to the writing. -/
def holes : List (Nat × BitVec 32) := [(cpAddr, 5), (cpc + 348, 5), (cpc + 352, pmod .set), (wv + 352, pmod .set), (R.rd + 4, BitVec.ofNat 32 (R.cs 0)), (S.jump + 4, BitVec.ofNat 32 S.wr),
  (dat, 0x05124D57), (dat + 4, 0x00041418)]
/-- The memory of the game between 0x7000000 and 0x7F00000 holds `u`. -/
def mem (u : List (Nat × BitVec 32)) (xv yv nv : BitVec 32) : Mem := L0.mem exBuf (vs xv yv nv) (pinHoles X ++ holes ++ u)

theorem laid (xv yv nv : BitVec 32) : L0.Laid exBuf (vs xv yv nv) := Layout.laidB_spec (show L0.laidB exBuf 58 = true by decide +kernel)
theorem pins : L0.pinB exBuf 58 X = true := by decide +kernel
theorem laid0 : L0.Laid exBuf (vs 0 0 0) := laid 0 0 0
theorem wf : L.Wf := (laid0.pinWf pins).hide (Layout.freeB_spec (by decide +kernel))
theorem ok (u : List (Nat × BitVec 32)) (xv yv nv : BitVec 32) : L.Ok (mem u xv yv nv) := by
  unfold mem
  rw [List.append_assoc]
  have h := (laid xv yv nv).pinOk pins (holes ++ u)
  exact ⟨h.prog, h.mask, h.rest⟩
def cellQ (x : Nat) : Bool := L0.pinCellB X x && x != trigAt 137 + 4
theorem hcell {x : Nat} (h : (L0.pin X).cell x) (hx : x ≠ trigAt 137 + 4) : L.cell x := ⟨h.1, by rw [L, Layout.hide_priv]; exact fun e => e.elim hx h.2⟩
theorem cell {x : Nat} (h : cellQ x = true) : L.cell x := by
  simp only [cellQ, Bool.and_eq_true, bne_iff_ne, ne_eq] at h
  exact hcell (laid0.pinCellB h.1) h.2
theorem far {x : Nat} (h1 : 0x7000000 ≤ x) (h2 : x < 0x7F00000) : L.cell x :=
  hcell (laid0.far (lo := 0x7000000) (hi := 0x7F00000) (show L0.farB X 0x7000000 0x7F00000 = true by decide +kernel) h1 h2) (by simp only [trigAt]; omega)
theorem pv {v : Nat} (h : v ∈ [cpc, wv]) : PVar L v := by
  have h1 : ∀ v ∈ [cpc, wv], (∀ r ∈ pvPins v, r ∈ X) ∧ (∀ o ∈ [4, 344, 348, 352], L0.Free exBuf 58 (v + o) ∧ ∀ r ∈ X, v + o ≠ r.1 + 4) ∧ trigAt 137 + 4 ∉ [v + 4, v + 344, v + 348, v + 352] := by
    decide +kernel
  exact (PVar.pin laid0 (h1 v h).1 (h1 v h).2.1).hide (h1 v h).2.2
theorem vars : ∀ v ∈ (List.range 58).map exVar, v ∈ L.P.vars := fun _ h => h

theorem bp {l : List SBlk} (k : Nat) (h : parts[k]? = some l) : ∀ b ∈ l, b ∈ L.P.blks := fun _ hb => List.mem_flatten.2 ⟨l, List.mem_of_getElem? h, hb⟩
theorem sp {l : List Blk} (k : Nat) (h : sparts[k]? = some l) : ∀ b ∈ l, b ∈ L.P.seqs := fun _ hb => List.mem_flatten.2 ⟨l, List.mem_of_getElem? h, hb⟩

/-- A piece with the triggers and assignments at these places. -/
theorem into {E : Emitted} (k : Nat) (hk : parts[k]? = some E.blks) (hs : E.seqs = [] ∨ ∃ j : Nat, sparts[j]? = some E.seqs) (h3 : E.rest = []) : E.Into L := by
  refine ⟨bp k hk, ?_, by rw [h3]; simp⟩
  rcases hs with e | ⟨j, e⟩
  · rw [e]; simp
  · exact sp j e

theorem tab : RdTab L T A rend := by
  have hc : ∀ x ∈ [rend + 4, rend + 344, rend + 348, cpAddr], cellQ x = true := by decide +kernel
  refine ⟨fun t r h => ?_, bp 0 rfl _ (.head _), cell (hc _ (by simp)), cell (hc _ (by simp)), cell (hc _ (by simp)), cell (hc _ (by simp)), by decide⟩
  have := tabBlks_mem (A := A) (rend := rend) (k := 0) h
  rw [Nat.zero_add] at this
  exact bp 0 rfl _ (.tail _ this)

theorem rdrs (i : Nat) (h : i < 4) : Reader L rend (br i) (255 * 2 ^ (8 * i)) (-(8 * i : Nat)) := by
  have : ∀ i < 4, T.req (qb i) = some (T, rt i) := by decide +kernel
  have h2 : ∀ i < 4, (qb i).mask < 2 ^ 32 := by decide +kernel
  exact Reader.of (q := qb i) wf ExRead.base [] (h2 i h) (this i h) tab

theorem rok : BRdOk L rend R br where
  b := bp 1 rfl _ (.head _)
  cb := fun i h => by
    have : i = 0 ∨ i = 1 ∨ i = 2 ∨ i = 3 := by omega
    rcases this with rfl | rfl | rfl | rfl
    · exact bp 1 rfl _ (.tail _ (.head _))
    · exact bp 1 rfl _ (.tail _ (.tail _ (.head _)))
    · exact bp 1 rfl _ (.tail _ (.tail _ (.tail _ (.head _))))
    · exact bp 1 rfl _ (.tail _ (.tail _ (.tail _ (.tail _ (.head _)))))
  rdr := rdrs
  c4 := cell (by decide +kernel)
  c348 := cell (by decide +kernel)
  lt := by decide

/-! Code -/

theorem fend {fe : Nat} (k : Nat) (h : parts[k]? = some (fendBlks [] fe)) (hc : cellQ (fe + 4) = true) : FuncEnd L fe (fe + 4) [] := fendBlks_end (frets := []) (bp k h) (cell hc) (by simp) (by simp)

theorem fD : FuncCode L D.fs D.fe D.np [D.q, D.a] (constDivPow (D.a + 348) (D.q + 348) 4) := by
  refine ⟨⟨0, 0, ?_⟩, fendBlks_end (bp 2 rfl) (cell (by decide +kernel)) (fun v hv => ?_) (by decide)⟩
  · rw [show D.fs = eD.e by decide +kernel]
    exact emitD_code (S := noS) (f := fun _ => .skip) (es := .base (constDivPow (D.a + 348) (D.q + 348) 4)) (fun j b k x n m E h => by simp [noS] at h) (by decide +kernel)
      (into 3 rfl (.inr ⟨0, rfl⟩) (by decide +kernel))
  · have : ∀ v ∈ [D.q, D.a], cellQ (v + 4) = true ∧ v < 2 ^ 32 := by decide +kernel
    exact ⟨cell (this v hv).1, (this v hv).2⟩

theorem fR : FuncCode L RM.fs RM.fe RM.np [] (brSeekBody L D (trigAt 125) (exVar 0) R RM.off) := by
  refine ⟨⟨0, 0, ?_⟩, fend 4 rfl (by decide +kernel)⟩
  rw [show RM.fs = eR.e by decide +kernel]
  exact emitD_code (S := fun _ => callS dR) (f := fun _ => dR.stmt L) (es := .seq (.site 0) (.base tR)) (fun j b k x n m E h hi => callS_code wf (hF := by rw [show dR.fstart = D.fs by decide +kernel]; exact fD) (by decide +kernel) h hi)
    (by decide +kernel) (into 5 rfl (.inr ⟨1, rfl⟩) (by decide +kernel))

theorem fW : FuncCode L WM.fs WM.fe WM.np [] (bwSeekBody L D (trigAt 127) ExByteRw.W WM.off) := by
  refine ⟨⟨0, 0, ?_⟩, fend 6 rfl (by decide +kernel)⟩
  rw [show WM.fs = eW.e by decide +kernel]
  exact emitD_code (S := fun _ => callS dW) (f := fun _ => dW.stmt L) (es := .seq (.site 0) (.base tW)) (fun j b k x n m E h hi => callS_code wf (hF := by rw [show dW.fstart = D.fs by decide +kernel]; exact fD) (by decide +kernel) h hi)
    (by decide +kernel) (into 7 rfl (.inr ⟨2, rfl⟩) (by decide +kernel))

theorem cC {es : ES} {n k : Nat} (h : (emitG ExByteRw.W.fe noS es swEnd 0 0 n 30).isSome = true) (hi : parts[k]? = some (emitD ExByteRw.W.fe noS es swEnd 0 0 n 30).blks)
    (hs : (emitD ExByteRw.W.fe noS es swEnd 0 0 n 30).seqs = [] ∧ (emitD ExByteRw.W.fe noS es swEnd 0 0 n 30).rest = []) : Code L ExByteRw.W.fe swEnd 0 (es.stmt fun _ => .skip) (emitD ExByteRw.W.fe noS es swEnd 0 0 n 30).e 0 :=
  emitD_code (fun j b k x n m E h => by simp [noS] at h) h (into k hi (.inl hs.1) hs.2)

theorem swCode {b k : Nat} : Code L ExByteRw.W.fe b k (.prim (SwRel L (fun s => s ExByteRw.W.sub) (cases0 4 (bwCase L ExByteRw.W)))) (trigAt 133) swEnd := by
  refine sw_code wf (val := fun s => s ExByteRw.W.sub) (cases := [(0, eC0.e, bwCase L ExByteRw.W 0), (1, eC1.e, bwCase L ExByteRw.W 1), (2, eC2.e, bwCase L ExByteRw.W 2), (3, eC3.e, bwCase L ExByteRw.W 3)]) ?_ ?_
  · exact sw4_runs wf (cell (by decide +kernel)) (bp 10 rfl) (by simp [L, Layout.hide, Layout.pin, L0])
      (fun r h => by simp only [L, Layout.hide, Layout.pin, X, List.mem_append]; exact Or.inr (Or.inr h)) (by decide) (by decide) (by simp [L, Layout.hide])
      (laid0.cellB (x := trigAt 137 + 4) (by decide +kernel)).1 (by decide) (by decide +kernel)
  · intro c hc
    simp only [List.mem_cons, List.not_mem_nil, or_false] at hc
    rcases hc with rfl | rfl | rfl | rfl
    · exact ⟨0, ExByteRw.W.fe, 0, emitD_code (S := fun _ => vpS wv swEnd acts0) (f := fun _ => vproc L wv 0xFFFFFFFF swEnd acts0) (es := es0) (fun j b k x n m E h hi => vpS_code wf (pv (by simp)) h hi) (by decide +kernel)
        (into 11 rfl (.inl (by decide +kernel)) (by decide +kernel))⟩
    · exact ⟨0, ExByteRw.W.fe, 0, cC (es := esC 1) (n := 141) (k := 12) (by decide +kernel) rfl (by decide +kernel)⟩
    · exact ⟨0, ExByteRw.W.fe, 0, cC (es := esC 2) (n := 150) (k := 13) (by decide +kernel) rfl (by decide +kernel)⟩
    · exact ⟨0, ExByteRw.W.fe, 0, cC (es := esC 3) (n := 159) (k := 14) (by decide +kernel) rfl (by decide +kernel)⟩

theorem fendW : FuncEnd L ExByteRw.W.fe ExByteRw.W.np [] := fend 8 rfl (by decide +kernel)
theorem fB : FuncCode L (trigAt 133) ExByteRw.W.fe ExByteRw.W.np [] (bwBody L ExByteRw.W) := by
  refine ⟨⟨0, 0, ?_⟩, fendW⟩
  rw [show trigAt 133 = eB.e by decide +kernel]
  refine emitD_code (S := fun _ => swS) (f := fun _ => .prim (SwRel L (fun s => s ExByteRw.W.sub) (cases0 4 (bwCase L ExByteRw.W)))) (es := esW) ?_ (by decide +kernel) (into 9 rfl (.inl (by decide +kernel)) (by decide +kernel))
  intro j b k x n m E h hi
  simp only [swS] at h
  split at h
  · rename_i hx
    cases h
    rw [hx]
    exact swCode
  · cases h

theorem cK : Code L ExByteRw.W.fe 0 0 (bwConstBody ExByteRw.W) (ExByteRw.W.c 0) ExByteRw.W.fe := by
  refine .seq (m := ExByteRw.W.wr) ?_ ?_
  · rw [show ExByteRw.W.c 0 = eK.e by decide +kernel]
    exact emitD_code (S := noS) (f := fun _ => .skip) (es := .base (.seqs ((List.range 4).map (bwConst ExByteRw.W)))) (fun j b k x n m E h => by simp [noS] at h) (by decide +kernel) (into 15 rfl (.inl (by decide +kernel)) (by decide +kernel))
  · rw [show ExByteRw.W.wr = (emitD ExByteRw.W.fe noS (.base (bwTail ExByteRw.W)) 0 0 ExByteRw.W.fe 131 30).e by decide +kernel]
    exact emitD_code (S := noS) (f := fun _ => .skip) (es := .base (bwTail ExByteRw.W)) (fun j b k x n m E h => by simp [noS] at h) (by decide +kernel) (into 9 (by decide +kernel) (.inl (by decide +kernel)) (by decide +kernel))

theorem readS_code {nxt o : Nat} (hn : nxt < 2 ^ 32) (co : L.cell o) (eo : EpdOK o) (nd : (o :: (cpc + 348) :: (cpc + 352) :: brScr rend cpc R).Nodup) {r b k x n m : Nat} {E : Emitted} (h : readS nxt o b k x n m = some E) (hi : E.Into L) :
    Code L r b k (.prim (BReadRel L rend cpc R nxt o)) E.e x := by
  unfold readS at h
  split at h
  · rename_i hx
    cases h
    rw [hx]
    exact bread_code wf tab rok (pv (by simp)) (hi.blks _ (by simp)) ⟨by decide, hn⟩ co eo nd _ _ _
  · cases h

theorem wcS_code {back w : Nat} (hb : back < 2 ^ 32) {r b k x n m : Nat} {E : Emitted} (h : wcS back w b k x n m = some E) (hi : E.Into L) : Code L r b k (.prim (BWConstRel L ExByteRw.W back w)) E.e x := by
  unfold wcS at h
  split at h
  · rename_i hx
    cases h
    rw [hx]
    exact bwConst_code wf fendW hb cK (hi.blks _ (by simp)) _ _ _
  · cases h


/-! The divisions by 10 and 16 -/

theorem fend2 {fe : Nat} (k : Nat) (h : parts[k]? = some (q2 fe)) (hc : cellQ (fendPtr [D.q, D.a] fe) = true) : FuncEnd L fe (fendPtr [D.q, D.a] fe) [D.q, D.a] := by
  refine fendBlks_end (fun b hb => ?_) (cell hc) (fun v hv => ?_) (by decide)
  · simp only [fendBlks, List.mem_append, List.mem_singleton] at hb
    rcases hb with hb | hb
    · exact bp 2 rfl b (List.mem_append_left _ hb)
    · rw [hb]; exact bp k h _ (by simp [q2])
  · have : ∀ v ∈ [D.q, D.a], cellQ (v + 4) = true ∧ v < 2 ^ 32 := by decide +kernel
    exact ⟨cell (this v hv).1, (this v hv).2⟩

theorem f10 : FuncCode L D10.fs D10.fe D10.np [D10.q, D10.a] (divFn D10.a D10.q D10.a 10) := by
  refine ⟨⟨0, 0, ?_⟩, fend2 16 rfl (by decide +kernel)⟩
  rw [show D10.fs = e10.e by decide +kernel]
  exact emitD_code (S := noS) (f := fun _ => .skip) (es := .base (divFn D10.a D10.q D10.a 10)) (fun j b k x n m E h => by simp [noS] at h) (by decide +kernel)
    (into 17 rfl (.inr ⟨3, rfl⟩) (by decide +kernel))

theorem f16 : FuncCode L D16.fs D16.fe D16.np [D16.q, D16.a] (divFn D16.a D16.q D16.a 16) := by
  refine ⟨⟨0, 0, ?_⟩, fend2 18 rfl (by decide +kernel)⟩
  rw [show D16.fs = e16.e by decide +kernel]
  exact emitD_code (S := noS) (f := fun _ => .skip) (es := .base (divFn D16.a D16.q D16.a 16)) (fun j b k x n m E h => by simp [noS] at h) (by decide +kernel)
    (into 19 rfl (.inr ⟨4, rfl⟩) (by decide +kernel))

/-! The subroutines -/

def pF (L : Layout) (j : Nat) : Stmt := if j < 10 then (sD D10 10 (P.bd j) (P.n j) (P.n (j + 1)) (P.c j)).stmt L else (BOp.writeV P.w (.var (P.c (j - 10)))).stmt L G (P.bw (j - 10))

theorem dgt_eq (L : Layout) {i : Nat} (h : i < 10) : (esDgt i).stmt (pF L) = P.dgt L i := by
  simp only [esDgt, ES.stmt, pF, if_pos h]; rfl
theorem wrt_eq (L : Layout) (i : Nat) : (esWrt i).stmt (pF L) = P.wrt L G i := by
  simp only [esWrt, ES.stmt, pF, show ¬ 10 + i < 10 by omega, if_false, Nat.add_sub_cancel_left]; rfl
theorem lev_eq (L : Layout) : ∀ k ≤ 9, (esLev k).stmt (pF L) = P.lev L G k
  | 0, _ => by simp only [esLev, ES.stmt, DecPr.lev, dgt_eq L (show 9 < 10 by decide), wrt_eq]
  | k + 1, h => by simp only [esLev, ES.stmt, DecPr.lev, dgt_eq L (show 8 - k < 10 by omega), wrt_eq, lev_eq L k (by omega)]

theorem sB_code {back v : Nat} {r b k x n m : Nat} {E : Emitted} (h : callS (sB L00 back v) b k x n m = some E) (hi : E.Into L) : Code L r b k ((BOp.writeV 0 (.var v)).stmt L G back) E.e x :=
  callS_code (c := sB L back v) wf fB (by intro r h; cases h) h hi

theorem dne {d : Div4} {q r : Nat} (h : d.q + 4 ≠ d.np ∧ d.a + 4 ≠ d.np) {p : Nat × Nat} (hp : p ∈ [(d.q, q), (d.a, r)]) : p.1 + 4 ≠ d.np := by
  simp only [List.mem_cons, List.not_mem_nil, or_false] at hp
  rcases hp with rfl | rfl
  · exact h.1
  · exact h.2

theorem cP : Code L P.fe 0 0 (P.lev L G 9) (seqAt 69) P.fe := by
  rw [← lev_eq L 9 (by decide), show seqAt 69 = eP.e by decide +kernel]
  refine emitD_code (S := pS) (es := esLev 9) ?_ (by decide +kernel) ⟨bp 21 rfl, sp 5 rfl, fun r h => List.mem_append_left _ (List.mem_cons_of_mem _ (List.mem_append_left _ h))⟩
  intro j b k x n m E h hi
  unfold pS at h
  unfold pF
  split at h
  · rename_i hj
    rw [if_pos hj]
    exact callS_code (c := sD D10 10 (P.bd j) (P.n j) (P.n (j + 1)) (P.c j)) wf f10 (fun r hr => dne (by decide +kernel) hr) h hi
  · rename_i hj
    rw [if_neg hj]
    exact sB_code h hi

def hF (L : Layout) (j : Nat) : Stmt := if j < 8 then (sD D16 16 (H.bd j) (H.n j) (H.n (j + 1)) (H.c j)).stmt L else (BOp.writeV H.w (.var (H.c (j - 8)))).stmt L G (H.bw (j - 8))

theorem divs_eq (L : Layout) : ∀ k ≤ 8, (esDivs k).stmt (hF L) = H.divs L k
  | 0, _ => rfl
  | k + 1, h => by
    simp only [esDivs, ES.stmt, HexPr.divs, divs_eq L k (by omega), hF, if_pos (show 7 - k < 8 by omega), show 8 - k = 7 - k + 1 by omega]; rfl
theorem outs_eq (L : Layout) : ∀ k, (esOuts k).stmt (hF L) = H.outs L G k
  | 0 => rfl
  | k + 1 => by
    simp only [esOuts, ES.stmt, HexPr.outs, outs_eq L k, hF, show ¬ 8 + k < 8 by omega, if_false, Nat.add_sub_cancel_left]

theorem cH : Code L H.fe 0 0 (H.body L G) (seqAt 85) H.fe := by
  have e : H.body L G = esH.stmt (hF L) := by
    simp only [HexPr.body, esH, ES.stmt, divs_eq L 8 (by decide), outs_eq]
  rw [e, show seqAt 85 = eH.e by decide +kernel]
  refine emitD_code (S := hS) (es := esH) ?_ (by decide +kernel) (into 23 rfl (.inr ⟨6, rfl⟩) (by decide +kernel))
  intro j b k x n m E h hi
  unfold hS at h
  unfold hF
  split at h
  · rename_i hj
    rw [if_pos hj]
    exact callS_code (c := sD D16 16 (H.bd j) (H.n j) (H.n (j + 1)) (H.c j)) wf f16 (fun r hr => dne (by decide +kernel) hr) h hi
  · rename_i hj
    rw [if_neg hj]
    exact sB_code h hi

theorem varU {v : Nat} (h : v ∈ (List.range 58).map exVar) (hi : G.ints.contains (v + 348) = false) (he : EpdOK (v + 348)) : VarU L G v := ⟨vars v h, notInt hi, he⟩

theorem sok : S.Ok L G where
  r := by decide
  w := by decide
  vb := varU (by decide +kernel) (by decide +kernel) (by decide)
  cf := ⟨cell (by decide +kernel), cell (by decide +kernel), cell (by decide +kernel), cell (by decide +kernel)⟩
  lt := by decide
  int := fun y h => notInt ((show ∀ y ∈ S.dws, G.ints.contains y = false by decide +kernel) y h)
  nd := by decide +kernel

theorem cS : Code L 0 0 0 (.prim (StrPr.Loop L G S)) (trigAt 292) S.fe := by
  refine StrPr.loop_code wf sok ⟨0, 0, 0, ?_⟩ ⟨0, 0, 0, ?_⟩ (bp 24 rfl _ (.head _)) 0 0 0
  · rw [show trigAt 292 = eS1.e by decide +kernel]
    exact emitD_code (S := fun _ => readS S.jump (S.b + 348)) (f := fun _ => S.rd L G) (es := .site 0)
      (fun j b k x n m E h hi => readS_code (by decide) (cell (by decide +kernel)) (by decide) (by decide +kernel) h hi) (by decide +kernel) (into 25 rfl (.inl (by decide +kernel)) (by decide +kernel))
  · rw [show S.wr = eS2.e by decide +kernel]
    exact emitD_code (S := fun _ => callS (sB L00 S.k2 S.b)) (f := fun _ => (BOp.writeV 0 (.var S.b)).stmt L G S.k2) (es := esS2) (fun j b k x n m E h hi => sB_code h hi) (by decide +kernel)
      (into 26 rfl (.inr ⟨7, rfl⟩) (by decide +kernel))

/-! The functions -/

theorem subS_code {fs fe back : Nat} {gs : List Asg} {body : Stmt} {as : List PA} (hb : ∃ r b k, Code L r b k body fs fe) (k' : Nat) (he : ∃ l, parts[k']? = some l ∧ fBlk fe as ∈ l) (hp : placedAB (fe + 328) as = true)
    (h4 : cellQ (fe + 4) = true) (hk : back < 2 ^ 32) {r b k x n m : Nat} {E : Emitted} (h : subS fs back gs b k x n m = some E) (hi : E.Into L) : Code L r b k (.prim (SubRel L fe back gs body as)) E.e x := by
  unfold subS at h
  split at h
  · rename_i hx
    split at h
    · rename_i hq
      cases h
      rw [hx]
      obtain ⟨l, hl, hm⟩ := he
      exact sub_code wf ⟨0, 0, 0, emitAsg_code hq hi.seqs _ _ _⟩ hb (bp k' hl _ hm) (placedAB_spec hp) (cell h4) hk _ _ _
    · cases h
  · cases h

theorem fF {F : PrFn} {mid : Stmt} {S' : (b k x n m : Nat) → Option Emitted} {es : ES} {n m k : Nat} {f : Nat → Stmt} (hw : F.w = 0) (hk2 : F.k2 < 2 ^ 32) (he : F.fs = (emitD F.fe (fS F S') (esF F es) 0 0 F.fe n m).e) (hs : (emitG F.fe (fS F S') (esF F es) 0 0 F.fe n m).isSome = true)
    (hi : (emitD F.fe (fS F S') (esF F es) 0 0 F.fe n m).Into L) (hm : ∀ (j b k x n m : Nat) (E : Emitted), j = 1 ∨ j ≥ 3 → fS F S' j b k x n m = some E → E.Into L → Code L F.fe b k (f j) E.e x)
    (h0 : f 0 = (BOp.wseekV F.w (.var F.dst)).stmt L G F.k1) (h2 : f 2 = (BOp.writeC F.w 0).stmt L G F.k2) (hmid : es.stmt f = mid) (hb : parts[k]? = some (fendBlks [F.r] F.fe)) (hn : F.np = fendPtr [F.r] F.fe)
    (hc : cellQ F.np = true ∧ cellQ (F.r + 4) = true ∧ F.r < 2 ^ 32) : FuncCode L F.fs F.fe F.np [F.r] (F.body L G mid) := by
  refine ⟨⟨0, 0, ?_⟩, ?_⟩
  · rw [he, show F.body L G mid = (esF F es).stmt f by simp only [PrFn.body, esF, ES.stmt, h0, h2, hmid]]
    refine emitD_code ?_ hs hi
    intro j b k x n m E h hi
    by_cases h3 : j = 1 ∨ j ≥ 3
    · exact hm j b k x n m E h3 h hi
    · have : j = 0 ∨ j = 2 := by omega
      rcases this with rfl | rfl
      · rw [h0, hw]
        exact callS_code (c := sW L F.k1 F.dst) wf fW (by intro r h; cases h) h hi
      · rw [h2, hw]
        exact wcS_code hk2 h hi
  · rw [hn]
    refine fendBlks_end (bp k hb) (cell (hn ▸ hc.1)) (fun v hv => ?_) (by simp)
    simp only [List.mem_singleton] at hv
    subst hv
    exact ⟨cell hc.2.1, hc.2.2⟩

theorem fF1 : FuncCode L F1.fs F1.fe F1.np [F1.r] (F1.body L G (mid1 L)) := by
  refine fF (F := F1) (S' := subS (seqAt 69) (trigAt 296) g1) (es := .site 1) (n := 296) (m := 87) (k := 27)
    (f := fun j => match j with | 0 => (BOp.wseekV F1.w (.var F1.dst)).stmt L G F1.k1 | 2 => (BOp.writeC F1.w 0).stmt L G F1.k2 | 1 => mid1 L | _ => (BOp.rseekV 0 (.var F1.num)).stmt L G (seqAt 94)) rfl (by decide) (by decide +kernel) (by decide +kernel)
    (into 28 rfl (.inr ⟨8, rfl⟩) (by decide +kernel)) ?_ rfl rfl rfl rfl rfl (by decide +kernel)
  intro j b k x n m E hj h hi
  match j with
  | 1 => exact subS_code (fs := seqAt 69) (fe := P.fe) (gs := g1) (body := P.lev L G 9) (as := P.fin) ⟨_, _, _, cP⟩ 20 ⟨_, rfl, by simp⟩ (by decide +kernel) (by decide +kernel) (by decide) h hi
  | _ + 3 => exact callS_code (c := sR L (seqAt 94) F1.num) wf fR (by intro r h; cases h) h hi

theorem fF2 : FuncCode L F2.fs F2.fe F2.np [F2.r] (F2.body L G (mid2 L)) := by
  refine fF (F := F2) (S' := subS (seqAt 85) (trigAt 299) g2) (es := .site 1) (n := 299) (m := 90) (k := 29)
    (f := fun j => match j with | 0 => (BOp.wseekV F2.w (.var F2.dst)).stmt L G F2.k1 | 2 => (BOp.writeC F2.w 0).stmt L G F2.k2 | 1 => mid2 L | _ => (BOp.rseekV 0 (.var F2.num)).stmt L G (seqAt 94)) rfl (by decide) (by decide +kernel) (by decide +kernel)
    (into 30 rfl (.inr ⟨9, rfl⟩) (by decide +kernel)) ?_ rfl rfl rfl rfl rfl (by decide +kernel)
  intro j b k x n m E hj h hi
  match j with
  | 1 => exact subS_code (fs := seqAt 85) (fe := H.fe) (gs := g2) (body := H.body L G) (as := []) ⟨_, _, _, cH⟩ 22 ⟨_, rfl, by simp⟩ (by decide +kernel) (by decide +kernel) (by decide) h hi
  | _ + 3 => exact callS_code (c := sR L (seqAt 94) F2.num) wf fR (by intro r h; cases h) h hi

theorem fF3 : FuncCode L F3.fs F3.fe F3.np [F3.r] (F3.body L G (mid3 L)) := by
  refine fF (F := F3) (S' := subS (trigAt 292) (trigAt 302) g3) (es := .seq (.site 3) (.site 1)) (n := 302) (m := 93) (k := 31)
    (f := fun j => match j with | 0 => (BOp.wseekV F3.w (.var F3.dst)).stmt L G F3.k1 | 2 => (BOp.writeC F3.w 0).stmt L G F3.k2 | 1 => S.sub L G F3.dst (trigAt 302) | _ => (BOp.rseekV 0 (.var F3.num)).stmt L G (seqAt 94)) rfl (by decide) (by decide +kernel) (by decide +kernel)
    (into 32 rfl (.inr ⟨10, rfl⟩) (by decide +kernel)) ?_ rfl rfl rfl rfl rfl (by decide +kernel)
  intro j b k x n m E hj h hi
  match j with
  | 1 => exact subS_code (fs := trigAt 292) (fe := S.fe) (gs := g3) (body := .prim (StrPr.Loop L G S)) (as := S.fin) ⟨_, _, _, cS⟩ 24 ⟨_, rfl, by simp⟩ (by decide +kernel) (by decide +kernel) (by decide) h hi
  | _ + 3 => exact callS_code (c := sR L (seqAt 94) F3.num) wf fR (by intro r h; cases h) h hi

def prog : Stmt := .seq (F1.call L G (mid1 L) (seqAt 98) (o + 348) (.var x) (.var n)) (.seq (F2.call L G (mid2 L) (seqAt 97) (o + 348) (.var o) (.var n)) (F3.call L G (mid3 L) haltAt (o + 348) (.var o) (.var y)))

theorem code : Code L retAt 0 0 prog (seqAt 99) haltAt := by
  rw [show seqAt 99 = eM.e by decide +kernel]
  refine emitD_code (S := mS) (f := fun j => match j with | 0 => F1.call L G (mid1 L) (seqAt 98) (o + 348) (.var x) (.var n) | 1 => F2.call L G (mid2 L) (seqAt 97) (o + 348) (.var o) (.var n) | _ => F3.call L G (mid3 L) haltAt (o + 348) (.var o) (.var y)) (es := esM) ?_ (by decide +kernel) (show eM.Into L from ⟨by rw [show eM.blks = [] by decide +kernel]; simp, sp 11 rfl, by rw [show eM.rest = [] by decide +kernel]; simp⟩)
  intro j b k x' n' m E h hi
  match j with
  | 0 => exact callS_code (c := sF L F1 (mid1 L) (seqAt 98) x n) wf fF1 (by simp only [sF]; decide +kernel) h hi
  | 1 => exact callS_code (c := sF L F2 (mid2 L) (seqAt 97) o n) wf fF2 (by simp only [sF]; decide +kernel) h hi
  | _ + 2 => exact callS_code (c := sF L F3 (mid3 L) haltAt o y) wf fF3 (by simp only [sF]; decide +kernel) h hi

/-! Static facts -/

theorem intCell : ∀ x ∈ G.ints, cellQ x = true := by decide +kernel

theorem gok : G.Ok L br where
  wf := wf
  cel := fun x hx => cell (intCell x (BCfg.ints_mem.2 hx))
  nd := by
    rintro (_ | i | i) h
    · decide +kernel
    · show (G.own (.rd 0)).Nodup
      decide +kernel
    · show (G.own (.wr 0)).Nodup
      decide +kernel
  sep := by
    have h1 : ∀ x ∈ G.own .com, x ∉ G.own (.rd 0) ∧ x ∉ G.own (.wr 0) := by decide +kernel
    have h2 : ∀ x ∈ G.own (.rd 0), x ∉ G.own (.wr 0) := by decide +kernel
    rintro (_ | i | i) (_ | j | j) hi hj hne x hx hy
    · exact hne rfl
    · exact (h1 x hx).1 hy
    · exact (h1 x hx).2 hy
    · exact (h1 x hy).1 hx
    · have a : i < 1 := hi
      have b : j < 1 := hj
      exact hne (by rw [show i = j by omega])
    · exact h2 x hx hy
    · exact (h1 x hy).2 hx
    · exact h2 x hy hx
    · have a : i < 1 := hi
      have b : j < 1 := hj
      exact hne (by rw [show i = j by omega])
  pc := pv (by decide)
  div := ⟨cell (by decide +kernel), cell (by decide +kernel), by decide, fD⟩
  eev := by decide
  rd := fun _ _ => rok
  rme := fun _ _ => show EpdOK (R.rd + 348) ∧ RM.off ∈ L.P.vars ∧ trigAt 125 < 2 ^ 32 from ⟨by decide, vars _ (by decide), by decide⟩
  rmf := fun _ _ => fR
  wv := fun _ _ => show PVar L wv from pv (by decide)
  wme := fun _ _ => show EpdOK (ExByteRw.W.wr + 344) ∧ EpdOK (ExByteRw.W.wr + 348) ∧ EpdOK ExByteRw.W.sub ∧ WM.off ∈ L.P.vars ∧ trigAt 127 < 2 ^ 32 from ⟨by decide, by decide, by decide, vars _ (by decide), by decide⟩
  wf' := fun _ _ => ⟨_, fB⟩
  wmf := fun _ _ => fW

theorem pok : P.Ok L G where
  w := by decide
  vn := fun i h => vars _ ((show ∀ i < 11, P.n i ∈ (List.range 58).map exVar by decide +kernel) i h)
  vc := fun i h => vars _ ((show ∀ i < 10, P.c i ∈ (List.range 58).map exVar by decide +kernel) i h)
  cf := ⟨cell (by decide +kernel), cell (by decide +kernel), cell (by decide +kernel)⟩
  lt := by decide +kernel
  fc := f10
  da := ⟨cell (by decide +kernel), cell (by decide +kernel), by decide⟩
  dk := fun i h => callOkB_spec (cell := cellQ) (vars := (List.range 58).map exVar) (fun _ => cell) vars ((show ∀ i < 10, callOkB cellQ ((List.range 58).map exVar) P.D.np [(P.D.q, P.n (i + 1) + 348), (P.D.a, P.c i + 348)]
    [(P.D.a + 348, .var (P.n i))] [P.D.q + 348, P.D.a + 348] = true by decide +kernel) i h)
  int := fun y h hi => (show ∀ y ∈ P.dws, y ∈ G.ints → y ∈ G.D.own by decide +kernel) y (DecPr.mem_dws.2 h) (BCfg.ints_mem.2 hi)
  iv := ⟨fun i h => notInt ((show ∀ i < 10, G.ints.contains (P.c i + 348) = false by decide +kernel) i h), fun i h => notInt ((show ∀ i < 11, G.ints.contains (P.n i + 348) = false by decide +kernel) i h),
    notInt (by decide +kernel), notInt (by decide +kernel), notInt (by decide +kernel)⟩
  cc := by decide +kernel
  cn := by decide +kernel
  nn := by decide +kernel
  fo := by decide +kernel
  dn := by decide +kernel

theorem hok : H.Ok L G where
  w := by decide
  vn := fun i h => vars _ ((show ∀ i < 9, H.n i ∈ (List.range 58).map exVar by decide +kernel) i h)
  vc := fun i h => vars _ ((show ∀ i < 8, H.c i ∈ (List.range 58).map exVar by decide +kernel) i h)
  cf := cell (by decide +kernel)
  lt := by decide +kernel
  fc := f16
  da := ⟨cell (by decide +kernel), cell (by decide +kernel), by decide⟩
  dk := fun i h => callOkB_spec (cell := cellQ) (vars := (List.range 58).map exVar) (fun _ => cell) vars ((show ∀ i < 8, callOkB cellQ ((List.range 58).map exVar) H.D.np [(H.D.q, H.n (i + 1) + 348), (H.D.a, H.c i + 348)]
    [(H.D.a + 348, .var (H.n i))] [H.D.q + 348, H.D.a + 348] = true by decide +kernel) i h)
  int := fun y h hi => (show ∀ y ∈ H.dws, y ∈ G.ints → y ∈ G.D.own by decide +kernel) y h (BCfg.ints_mem.2 hi)
  iv := ⟨fun i h => notInt ((show ∀ i < 8, G.ints.contains (H.c i + 348) = false by decide +kernel) i h), notInt (by decide +kernel)⟩
  cc := by decide +kernel
  cn := by decide +kernel
  nn := by decide +kernel
  fo := by decide +kernel
  dn := by decide +kernel

theorem prOk {F : PrFn} {mid : Stmt} {T : List Nat} (hw : F.w = 0) (h1 : ∀ x ∈ [F.np, F.r + 344, F.r + 348], cellQ x = true) (h2 : ∀ x ∈ F.own, G.ints.contains x = false)
    (h3 : ∀ v ∈ [F.dst, F.num], v ∈ (List.range 58).map exVar ∧ G.ints.contains (v + 348) = false ∧ EpdOK (v + 348)) (h4 : F.own.Nodup) (h5 : F.k1 < 2 ^ 32 ∧ F.k2 < 2 ^ 32) (h6 : ∀ y ∈ T, y ∉ F.own)
    (h7 : FuncCode L F.fs F.fe F.np [F.r] (F.body L G mid)) : F.Ok L G mid T :=
  ⟨by rw [hw]; decide, fun x h => cell (h1 x h), fun x h => notInt (h2 x h), fun v h => varU (h3 v h).1 (h3 v h).2.1 (h3 v h).2.2, h4, h5, h6, h7⟩

theorem ok1 : F1.Ok L G (mid1 L) P.dws := prOk rfl (by decide +kernel) (by decide +kernel) (by decide +kernel) (by decide +kernel) (by decide +kernel) (by decide +kernel) fF1
theorem ok2 : F2.Ok L G (mid2 L) H.dws := prOk rfl (by decide +kernel) (by decide +kernel) (by decide +kernel) (by decide +kernel) (by decide +kernel) (by decide +kernel) fF2
theorem ok3 : F3.Ok L G (mid3 L) S.dws := prOk rfl (by decide +kernel) (by decide +kernel) (by decide +kernel) (by decide +kernel) (by decide +kernel) (by decide +kernel) fF3

/-- All dwords of the functions and subroutines. -/
def owns : List Nat := F1.own ++ P.dws ++ (F2.own ++ H.dws) ++ (F3.own ++ S.dws)
theorem own1 {z : Nat} (h : z ∈ F1.own ++ P.dws) : z ∈ owns := List.mem_append_left _ (List.mem_append_left _ h)
theorem own2 {z : Nat} (h : z ∈ F2.own ++ H.dws) : z ∈ owns := List.mem_append_left _ (List.mem_append_right _ h)
theorem own3 {z : Nat} (h : z ∈ F3.own ++ S.dws) : z ∈ owns := List.mem_append_right _ h

theorem argU {v : Nat} (h : v ∈ [x, y, n, o]) {l : List Nat} (hl : ∀ z ∈ l, z ∈ owns) : ArgU L G l (.var v) := by
  rintro w hw
  cases hw
  have : ∀ v ∈ [x, y, n, o], v ∈ (List.range 58).map exVar ∧ G.ints.contains (v + 348) = false ∧ v + 348 ∉ owns := by decide +kernel
  exact ⟨vars _ (this _ h).1, notInt (this _ h).2.1, fun hz => (this _ h).2.2 (hl _ hz)⟩

theorem destU {l : List Nat} (hl : ∀ z ∈ l, z ∈ owns) : DestU L G l (o + 348) :=
  ⟨cell (by decide +kernel), by decide, notInt (by decide +kernel), fun h => absurd (hl _ h) (by decide +kernel)⟩

theorem farOwn {z : Nat} (h1 : 0x7000000 ≤ z) (h2 : z < 0x7F00000) : z ∉ owns := fun hx => by
  have : ∀ z ∈ owns, z < 0x7000000 ∨ 0x7F00000 ≤ z := by decide +kernel
  have := this z hx
  omega

theorem room {l : List Nat} (hl : ∀ z ∈ l, z ∈ owns) {q k : Nat} (h1 : 0x7000000 ≤ q) (h2 : q + k ≤ 0x7F00000) : Room L G (· ∈ l) q k := fun i hi => by
  rw [posB_eq (by omega)]
  exact ⟨farEpd (by omega) (by omega) (by omega), far (by omega) (by omega), farInt (by omega) (by omega), fun h => farOwn (by omega) (by omega) (hl _ h)⟩

/-! The run -/

/-- The machine starts with the reader and the writer at the first dword of the table of deaths. -/
theorem init (u : List (Nat × BitVec 32)) (hu : ∀ r ∈ u, 0x7000000 ≤ r.1 ∧ r.1 < 0x7F00000) (xv yv nv : BitVec 32) :
    BRep G 5 ⟨fun _ => 0x58A364, fun _ => 0x58A364, L.view (mem u xv yv nv)⟩ (L.view (mem u xv yv nv)) ∧ (∀ k : Nat, (h : k < 58) → L.view (mem u xv yv nv) (exVar k + 348) = (vs xv yv nv)[k]'h) ∧
    L.view (mem u xv yv nv) (P.fe + 348) = 0 ∧ L.view (mem u xv yv nv) (S.fe + 348) = 0 ∧ L.view (mem u xv yv nv) (S.jump + 4) = BitVec.ofNat 32 S.wr ∧
    L.view (mem u xv yv nv) TL.cnt = 0 ∧ L.view (mem u xv yv nv) dat = 0x05124D57 ∧ L.view (mem u xv yv nv) (dat + 4) = 0x00041418 := by
  have hl := laid xv yv nv
  have hvv : ∀ a, L.cell a → ∀ m, L.view m a = m a := fun a ha m => Layout.view_at ha.2
  have fi : ∀ z, (z < 0x7000000 ∨ 0x7F00000 ≤ z) → (pinHoles X ++ holes ++ u).find? (fun r => r.1 == z) = (pinHoles X ++ holes).find? (fun r => r.1 == z) := by
    intro z hz
    rw [List.find?_append, show List.find? (fun r => r.1 == z) u = none by
      rw [List.find?_eq_none]
      intro r hr
      have := hu r hr
      simp only [beq_iff_eq]
      omega, Option.or_none]
  have fr : ∀ z, cellQ z = true ∧ L0.Free exBuf 58 z ∧ (z < 0x7000000 ∨ 0x7F00000 ≤ z) → L.view (mem u xv yv nv) z = match (pinHoles X ++ holes).find? (fun r => r.1 == z) with | some r => r.2 | none => 0 := by
    intro z hz
    rw [hvv _ (cell hz.1), ← fi z hz.2.2]
    exact hl.free hz.2.1 (by decide) _
  have ho : ∀ (b : SBlk) (o : Nat), b ∈ L.P.blks → o < 2408 → b.wordAt o = none → (o = 4 → ∀ r ∈ L0.rest, r.1 ≠ b.t) → cellQ (b.t + o) = true → (b.t + o < 0x7000000 ∨ 0x7F00000 ≤ b.t + o) →
      L.view (mem u xv yv nv) (b.t + o) = match (pinHoles X ++ holes).find? (fun r => r.1 == b.t + o) with | some r => r.2 | none => 0 := by
    intro b o h1 h2 h3 h4 h5 h6
    rw [hvv _ (cell h5), ← fi _ h6]
    exact (hl.hole h1 h2 h3 h4 _).2
  have vv : ∀ k : Nat, (h : k < 58) → L.view (mem u xv yv nv) (exVar k + 348) = (vs xv yv nv)[k]'h := by
    intro k h
    have : ∀ k < 58, cellQ (exVar k + 348) = true := by decide +kernel
    rw [hvv _ (cell (this k h))]
    exact (hl.ok _).2 k h
  have hc : ∀ z ∈ [cpAddr, cpc + 348, cpc + 352, wv + 352], cellQ z = true ∧ L0.Free exBuf 58 z ∧ (z < 0x7000000 ∨ 0x7F00000 ≤ z) := by decide +kernel
  have wb : (⟨ExByteRw.W.wr, ⟨[], [aHole (ExByteRw.W.wr + 328), aMem ExByteRw.W.sub .add 1, aMem (ExByteRw.W.wr + 348) .set 0].map PA.a⟩, some (trigAt 131), false⟩ : SBlk) ∈ L.P.blks := bp 9 rfl _ (by
    rw [show eB.blks = [eB.blks.head (by decide +kernel), ⟨ExByteRw.W.wr, ⟨[], [aHole (ExByteRw.W.wr + 328), aMem ExByteRw.W.sub .add 1, aMem (ExByteRw.W.wr + 348) .set 0].map PA.a⟩, some (trigAt 131), false⟩] by decide +kernel]
    simp)
  have hR : R.At (L.view (mem u xv yv nv)) 0x58A364 := by
    refine ⟨?_, ?_⟩
    · exact (ho rdBlk 4 (bp 1 rfl _ (.head _)) (by decide) (by decide +kernel) (fun _ => by decide +kernel) (by decide +kernel) (by decide)).trans (by decide +kernel)
    · rw [show L.view (mem u xv yv nv) (R.rd + 348) = 0 from (ho rdBlk 348 (bp 1 rfl _ (.head _)) (by decide) (by decide +kernel) (by simp) (by decide +kernel) (by decide)).trans (by decide +kernel)]
      decide
  have hW : ExByteRw.W.At (L.view (mem u xv yv nv)) 0x58A364 := by
    refine ⟨vv 10 (by decide), ?_, ?_⟩
    · rw [show L.view (mem u xv yv nv) (ExByteRw.W.wr + 344) = 0 from (ho _ 344 wb (by decide) (by decide +kernel) (by simp) (by decide +kernel) (by decide)).trans (by decide +kernel)]
      decide
    · exact (ho _ 348 wb (by decide) (by decide +kernel) (by simp) (by decide +kernel) (by decide)).trans (by decide +kernel)
  refine ⟨⟨fun i hi => ⟨hR, (by decide : 0x58A364 < 2 ^ 32)⟩, fun i hi => ⟨hW, (by decide : 0x58A364 < 2 ^ 32), ?_⟩, ⟨?_, ?_, ?_, ?_⟩, fun _ _ => rfl⟩, vv, ?_, ?_, ?_, ?_, ?_, ?_⟩
  · exact (fr (wv + 352) (hc _ (by simp))).trans (by decide +kernel)
  · exact (fr (cpc + 352) (hc _ (by simp))).trans (by decide +kernel)
  · exact (ho (rendBlk rend) 348 (bp 0 rfl _ (.head _)) (by decide) (by decide +kernel) (by simp) (by decide +kernel) (by decide)).trans (by decide +kernel)
  · exact (fr cpAddr (hc _ (by simp))).trans (by decide +kernel)
  · exact (fr (cpc + 348) (hc _ (by simp))).trans (by decide +kernel)
  · exact (ho (fBlk P.fe P.fin) 348 (bp 20 rfl _ (.head _)) (by decide) (by decide +kernel) (by simp) (by decide +kernel) (by decide)).trans (by decide +kernel)
  · exact (ho (fBlk S.fe S.fin) 348 (bp 24 rfl _ (.tail _ (.head _))) (by decide) (by decide +kernel) (by simp) (by decide +kernel) (by decide)).trans (by decide +kernel)
  · exact (ho jBlk 4 (bp 24 rfl _ (.head _)) (by decide) (by decide +kernel) (fun _ => by decide +kernel) (by decide +kernel) (by decide)).trans (by decide +kernel)
  · exact (fr TL.cnt (by decide +kernel)).trans (by decide +kernel)
  · exact (fr dat (by decide +kernel)).trans (by decide +kernel)
  · exact (fr (dat + 4) (by decide +kernel)).trans (by decide +kernel)

theorem view_far (m : Mem) {z : Nat} (h1 : 0x7000000 ≤ z) (h2 : z < 0x7F00000) : L.view m z = m z := Layout.view_at (far h1 h2).2

theorem put_far {m m' : Mem} {q : Nat} {l : List (BitVec 8)} (h : ∀ z, 0x7000000 ≤ z → z < 0x7F00000 → m' z = putBytes m q l z) (h1 : 0x7000000 ≤ q) (h2 : q + l.length ≤ 0x7F00000) :
    (∀ k (hk : k < l.length), byteAt m' (q + k) = l[k]) ∧ ∀ z, 0x7000000 ≤ z → z < 0x7F00000 → (z < q ∨ q + l.length ≤ z) → byteAt m' z = byteAt m z := by
  obtain ⟨g1, g2⟩ := byteAt_putBytes (l := l) (m := m) (q := q) (by omega) (by omega)
  refine ⟨fun k hk => ?_, fun z z1 z2 z3 => ?_⟩
  · rw [byte_far h (by omega) (by omega), ← posB_eq (p := q) (i := k) (by omega)]
    exact g1 k hk
  · rw [byte_far h z1 z2]
    exact g2 z fun k hk => by rw [posB_eq (by omega)]; omega

theorem put_low {m : Mem} {q z : Nat} {l : List (BitVec 8)} (hz : z < 0x6FFFFF0) (h1 : 0x7000000 ≤ q) (h2 : q + l.length ≤ 0x7F00000) : putBytes m q l z = m z :=
  putBytes_ne (by omega) fun k hk => by rw [posB_eq (by omega)]; omega

/-- What the calls keep. -/
theorem kept {z : Nat} (h : z ∈ [n + 348, y + 348, S.fe + 348, S.jump + 4]) : ¬ G.Int z ∧ z ≠ o + 348 ∧ z ∉ F1.own ∧ z ∉ P.dws ∧ z ∉ F2.own ∧ z ∉ H.dws ∧ z < 0x6FFFFF0 := by
  have : ∀ z ∈ [n + 348, y + 348, S.fe + 348, S.jump + 4], G.ints.contains z = false ∧ z ≠ o + 348 ∧ z ∉ F1.own ∧ z ∉ P.dws ∧ z ∉ F2.own ∧ z ∉ H.dws ∧ z < 0x6FFFFF0 := by decide +kernel
  exact ⟨notInt (this z h).1, (this z h).2⟩

theorem farO {z : Nat} (h1 : 0x7000000 ≤ z) (h2 : z < 0x7F00000) : z ≠ o + 348 ∧ z ∉ F1.own ∧ z ∉ P.dws ∧ z ∉ F2.own ∧ z ∉ H.dws ∧ z ∉ F3.own ∧ z ∉ S.dws := by
  have hn := farOwn h1 h2
  have : o + 348 < 0x7000000 := by decide
  simp only [owns, List.mem_append, not_or] at hn
  exact ⟨by omega, hn.1.1.1, hn.1.1.2, hn.1.2.1, hn.1.2.2, hn.2.1, hn.2.2⟩

/-- The decimal numeral, the hexadecimal numeral and the string stand one after the other and a zero byte follows; the rest of the memory stays, and so does the current player. -/
theorem run (u : List (Nat × BitVec 32)) (hu : ∀ r ∈ u, 0x7000000 ≤ r.1 ∧ r.1 < 0x7F00000) (xv yv nv : BitVec 32) (l t : List (BitVec 8)) (hl : StrAt (mem u xv yv nv) yv.toNat l)
    (ht : t = decimal nv.toNat ++ (hex8 nv.toNat ++ (l ++ [0]))) (hx : 0x7000000 ≤ xv.toNat) (hxt : xv.toNat + t.length ≤ 0x7F00000) (hy : 0x7000000 ≤ yv.toNat) (hyl : yv.toNat + l.length < 0x7F00000)
    (hov : yv.toNat + l.length < xv.toNat ∨ xv.toNat + t.length ≤ yv.toNat) :
    ∃ m', Reaches ⟨mem u xv yv nv, seqAt 99⟩ ⟨m', haltAt⟩ ∧ (∀ i (h : i < t.length), byteAt m' (xv.toNat + i) = t[i]) ∧
      (∀ q, 0x7000000 ≤ q → q < 0x7F00000 → (q < xv.toNat ∨ xv.toNat + t.length ≤ q) → byteAt m' q = byteAt (mem u xv yv nv) q) ∧ (m' (o + 348)).toNat = xv.toNat + t.length - 1 ∧ m' cpAddr = 5 := by
  obtain ⟨h0, vv, i1, i2, i3, -⟩ := init u hu xv yv nv
  have e3 : L.view (mem u xv yv nv) (x + 348) = xv := vv 3 (by decide)
  have e4 : L.view (mem u xv yv nv) (y + 348) = yv := vv 4 (by decide)
  have e5 : L.view (mem u xv yv nv) (n + 348) = nv := vv 5 (by decide)
  have hb : ∀ q, 0x7000000 ≤ q → q < 0x7F00000 → byteAt (L.view (mem u xv yv nv)) q = byteAt (mem u xv yv nv) q := fun q => byte_far fun z h1 h2 => view_far _ h1 h2
  generalize hs : L.view (mem u xv yv nv) = s at *
  have l8 : (hex8 nv.toNat).length = 8 := by rw [HexPr.hex8_low, HexPr.low_len]
  generalize hA : decimal nv.toNat = a at *
  generalize hB : hex8 nv.toNat = b at *
  have tl : t.length = a.length + (8 + (l.length + 1)) := by rw [ht]; simp only [List.length_append, l8, List.length_singleton]
  have m1 : ∀ z ∈ F1.own, z ∈ owns := fun z h => own1 (List.mem_append_left _ h)
  have m2 : ∀ z ∈ F2.own, z ∈ owns := fun z h => own2 (List.mem_append_left _ h)
  have m3 : ∀ z ∈ F3.own, z ∈ owns := fun z h => own3 (List.mem_append_left _ h)
  have hd : Does L prog s fun s' => (∃ s1 s2 : Mem, (∀ z, 0x7000000 ≤ z → z < 0x7F00000 → s1 z = putBytes s xv.toNat (a ++ [0]) z) ∧
      (∀ z, 0x7000000 ≤ z → z < 0x7F00000 → s2 z = putBytes s1 (xv.toNat + a.length) (b ++ [0]) z) ∧ (∀ z, 0x7000000 ≤ z → z < 0x7F00000 → s' z = putBytes s2 (xv.toNat + a.length + 8) (l ++ [0]) z)) ∧
      (s' (o + 348)).toNat = xv.toNat + t.length - 1 ∧ s' cpAddr = 5 := by
    have c1 := DecPr.C57_adddw gok pok ok1 rfl (back := seqAt 98) (by decide) (by decide) (destU fun z => own1) (d := .var x) (x := .var n) (argU (by simp) m1) (argU (by simp) m1) h0 i1
      (by rw [valM_var, valM_var, e3, e5, hA]; exact room (fun z => own1) hx (by omega))
    simp only [valM_var, e3, e5, hA] at c1
    refine Does.seq (c1.mono ?_)
    rintro s1 ⟨b1, v1, -, f1⟩
    have g1 : ∀ z ∈ [n + 348, y + 348, S.fe + 348, S.jump + 4], s1 z = s z := fun z hz => by
      obtain ⟨k1, k2, k3, k4, -, -, k5⟩ := kept hz
      rw [f1 z k1 k2 k3 k4, put_low k5 hx (by simp only [List.length_append, List.length_singleton]; omega)]
    have w1 : (s1 (o + 348)).toNat = xv.toNat + a.length := by
      rw [v1, BitVec.toNat_add, BitVec.toNat_ofNat]; omega
    have c2 := HexPr.C57_addptr gok hok ok2 rfl (back := seqAt 97) (by decide) (destU fun z => own2) (d := .var o) (x := .var n) (argU (by simp) m2) (argU (by simp) m2) b1
      (by rw [valM_var, w1]; exact room (fun z => own2) (by omega) (by omega))
    simp only [valM_var, w1, g1 (n + 348) (by simp), e5, hB] at c2
    refine Does.seq (c2.mono ?_)
    rintro s2 ⟨b2, v2, f2⟩
    have g2 : ∀ z ∈ [n + 348, y + 348, S.fe + 348, S.jump + 4], s2 z = s z := fun z hz => by
      obtain ⟨k1, k2, -, -, k3, k4, k5⟩ := kept hz
      rw [f2 z k1 k2 k3 k4, put_low k5 (by omega) (by simp only [List.length_append, List.length_singleton]; omega), g1 z hz]
    have w2 : (s2 (o + 348)).toNat = xv.toNat + a.length + 8 := by
      rw [v2, BitVec.toNat_add, w1]
      show (xv.toNat + a.length + 8) % 2 ^ 32 = _
      omega
    have n1 : ∀ z, 0x7000000 ≤ z → z < 0x7F00000 → s1 z = putBytes s xv.toNat (a ++ [0]) z := fun z z1 z2 => f1 z (farInt z1 z2) (farO z1 z2).1 (farO z1 z2).2.1 (farO z1 z2).2.2.1
    have n2 : ∀ z, 0x7000000 ≤ z → z < 0x7F00000 → s2 z = putBytes s1 (xv.toNat + a.length) (b ++ [0]) z := fun z z1 z2 =>
      f2 z (farInt z1 z2) (farO z1 z2).1 (farO z1 z2).2.2.2.1 (farO z1 z2).2.2.2.2.1
    have hl2 : StrAt s2 yv.toNat l := by
      refine StrAt.congr (by omega) (fun k hk => ?_) hl
      rw [posB_eq (by omega), (put_far n2 (by omega) (by simp only [List.length_append, List.length_singleton]; omega)).2 _ (by omega) (by omega) (by simp only [List.length_append, List.length_singleton]; omega),
        (put_far n1 (by omega) (by simp only [List.length_append, List.length_singleton]; omega)).2 _ (by omega) (by omega) (by simp only [List.length_append, List.length_singleton]; omega), hb _ (by omega) (by omega)]
    have c3 := StrPr.C57_addstr gok sok ok3 rfl (back := haltAt) (by decide) (by decide) (destU fun z => own3) (d := .var o) (x := .var y) (argU (by simp) m3) (argU (by simp) m3) b2 (l := l)
      (by rw [g2 _ (by simp), i2]) (by rw [g2 _ (by simp), i3]) (by rw [valM_var, g2 _ (by simp), e4]; exact hl2)
      (by
        rw [valM_var, g2 _ (by simp), e4]
        intro k hk
        rw [posB_eq (by omega)]
        exact ⟨(far (by omega) (by omega)).2, farInt (by omega) (by omega), fun h => farOwn (by omega) (by omega) (own3 h)⟩)
      (by rw [valM_var, w2]; exact room (fun z => own3) (by omega) (by omega))
      (by
        rw [valM_var, valM_var, g2 (y + 348) (by simp), e4, w2]
        intro i j h1 h2
        rw [posB_eq (by omega), posB_eq (by omega)]
        omega)
    simp only [valM_var, w2] at c3
    refine c3.mono ?_
    rintro s3 ⟨b3, v3, -, f3⟩
    refine ⟨⟨s1, s2, n1, n2, fun z z1 z2 => f3 z (farInt z1 z2) (farO z1 z2).1 (farO z1 z2).2.2.2.2.2.1 (farO z1 z2).2.2.2.2.2.2⟩, ?_, b3.com.2.2.1⟩
    rw [v3, BitVec.toNat_add, BitVec.toNat_ofNat, w2]
    omega
  obtain ⟨s', xe, ⟨s1, s2, n1, n2, n3⟩, hv, hc⟩ := hd
  obtain ⟨m', rr, -, hv'⟩ := C25_structured wf xe code _ (ok u xv yv nv) hs
  have n3' : ∀ z, 0x7000000 ≤ z → z < 0x7F00000 → m' z = putBytes s2 (xv.toNat + a.length + 8) (l ++ [0]) z := fun z z1 z2 => by rw [← view_far m' z1 z2, hv', n3 z z1 z2]
  obtain ⟨p1, r1⟩ := put_far n1 (by omega) (by simp only [List.length_append, List.length_singleton]; omega)
  obtain ⟨p2, r2⟩ := put_far n2 (by omega) (by simp only [List.length_append, List.length_singleton]; omega)
  obtain ⟨p3, r3⟩ := put_far n3' (by omega) (by simp only [List.length_append, List.length_singleton]; omega)
  simp only [List.length_append, List.length_singleton, l8] at r1 r2 r3
  refine ⟨m', rr, fun i hi => ?_, fun q q1 q2 q3 => ?_, ?_, ?_⟩
  · subst ht
    by_cases c1 : i < a.length
    · rw [r3 _ (by omega) (by omega) (by omega), r2 _ (by omega) (by omega) (by omega), p1 i (by simp only [List.length_append, List.length_singleton]; omega), List.getElem_append_left c1, List.getElem_append_left c1]
    · rw [List.getElem_append_right (by omega)]
      by_cases c2 : i - a.length < b.length
      · rw [r3 _ (by omega) (by omega) (by omega), show xv.toNat + i = xv.toNat + a.length + (i - a.length) by omega, p2 (i - a.length) (by simp only [List.length_append, List.length_singleton]; omega), List.getElem_append_left c2,
          List.getElem_append_left c2]
      · rw [List.getElem_append_right (by omega), show xv.toNat + i = xv.toNat + a.length + 8 + (i - a.length - b.length) by omega, p3 _ (by simp only [List.length_append, List.length_singleton] at hi ⊢; omega)]
  · rw [r3 q q1 q2 (by omega), r2 q q1 q2 (by omega), r1 q q1 q2 (by omega), hb q q1 q2]
  · rw [← Layout.view_at (L := L) (m := m') (cell (x := o + 348) (by decide +kernel)).2, hv', hv]
  · rw [← Layout.view_at (L := L) (m := m') (cell (x := cpAddr) (by decide +kernel)).2, hv', hc]

end ExPrint

end Eud.SC
