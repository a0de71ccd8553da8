import Verif.Ex.RepMov
import Verif.Ex.ByteWrite
import Verif.Ex.KitSw
import Verif.Lib.StrStr
/-
Example for C36 and C37: `r << f_strnstr(x, y, n); bs2.seekoffset(x); bs2.writebyte(w); bs2.copyto(bs1); c << bs1.readbyte()` with two streams and a reader in memory, for all contents of the memory and all strings that fit.
-/

namespace Eud.SC

/-- `VProc([a, b], …)` that goes on at `x0`. -/
def vp2S (a v d1 d2 x0 : Nat) (_b _k x n m : Nat) : Option Emitted :=
  if x = x0 then some ⟨trigAt n, n + 1, m, [⟨trigAt n, ⟨[], (vproc2Acts a v d1 d2 x0).map PA.a⟩, some a, false⟩], [], []⟩ else none

theorem vp2S_code {L : Layout} (hw : L.Wf) {a v d1 d2 x0 : Nat} (ha : PVar L a) (hv : PVar L v) (lt : v < 2 ^ 32 ∧ x0 < 2 ^ 32) (c1 : L.cell d1 ∧ EpdOK d1) (c2 : L.cell d2 ∧ EpdOK d2) (nd : (pvDw a ++ pvDw v).Nodup)
    (n1 : d1 ∉ (a + 4) :: pvDw v) (n2 : d2 ≠ v + 4) {r b k x n m : Nat} {E : Emitted} (h : vp2S a v d1 d2 x0 b k x n m = some E) (hi : E.Into L) : Code L r b k (.prim (VProc2Rel a v d1 d2 x0)) E.e x := by
  unfold vp2S at h
  split at h
  · rename_i hx
    cases h
    rw [hx]
    exact vproc2_code hw ha hv (hi.blks _ (by simp)) lt c1 c2 nd n1 n2 _ _ _
  · cases h

/-- `EUDInfLoop` with the body at `e0`. -/
def infS (r : Nat) (S : Nat → (b k x n m : Nat) → Option Emitted) (body : ES) (e0 : Nat) (_b _k x n m : Nat) : Option Emitted :=
  match emitG r S body x e0 e0 n m with
  | some E => if E.e = e0 then some E else none
  | none => none

theorem infS_code {L : Layout} {r : Nat} {S : Nat → (b k x n m : Nat) → Option Emitted} {f : Nat → Stmt} (hP : ∀ j b k x n m E, S j b k x n m = some E → E.Into L → Code L r b k (f j) E.e x)
    {body : ES} {e0 b k x n m : Nat} {E : Emitted} (h : infS r S body e0 b k x n m = some E) (hi : E.Into L) : Code L r b k (.loop false .skip [] (body.stmt f) .skip) E.e x := by
  unfold infS at h
  split at h
  · rename_i E' hE
    split at h
    · rename_i he
      cases h
      have := emitG_code hP hE hi
      rw [he] at this ⊢
      exact .loop (i := e0) (ta := e0) (c := e0) .skip (.jump (onfalse := x)) this .skip
    · cases h
  · cases h

namespace ExByteStream

open ExRead (tabBlks tabBlks_mem)
open ExRepMov (T)

def rend : Nat := trigAt 0
def A (t : Nat) : Nat := trigAt (t + 1)
def cpc : Nat := 0xE000000
def tbl (i : Nat) : Nat := 0xE010000 + 0x1000 * i
def qb (i : Nat) : RReq := .get (255 * 2 ^ (8 * i)) (-(8 * i : Nat))
def rt (i : Nat) : Nat := ((T.req (qb i)).map Prod.snd).getD 0
def br (i : Nat) : Nat := A (rt i)

def x : Nat := exVar 17
def y : Nat := exVar 18
def n : Nat := exVar 19
def w : Nat := exVar 20
def c : Nat := exVar 21
def r : Nat := exVar 22

def D : Div4 := ⟨trigAt 88, trigAt 87, seqAt 0, trigAt 89, fendPtr [trigAt 87, trigAt 88] (trigAt 89)⟩
def R : BRd := ⟨trigAt 82, fun i => trigAt (83 + i)⟩
def RM : Meth := ⟨exVar 1, seqAt 10, trigAt 121, trigAt 121 + 4⟩

/-- No writers. -/
def G : BCfg where
  rend := rend
  cpc := cpc
  ev3 := exVar 0
  D := D
  nr := 1
  nw := 0
  R := fun _ => R
  RM := fun _ => RM
  rbk := fun _ => trigAt 125
  W := fun _ => ⟨0, 0, 0, 0, 0, 0, fun _ => 0⟩
  WM := fun _ => ⟨0, 0, 0, 0⟩
  wbk := fun _ => 0

/-- The first trigger and the first assignments of a stream. -/
def B (i : Nat) : Nat := 130 + 90 * i
def Q (i : Nat) : Nat := 20 + 10 * i

def S (i : Nat) : BStr where
  off := 0xE001000 + 0x3000 * i
  sub := 0xE002000 + 0x3000 * i
  fr := trigAt (B i)
  rfs := trigAt (B i + 45)
  rfe := trigAt (B i + 1)
  rnp := fendPtr [trigAt (B i)] (trigAt (B i + 1))
  r1 := trigAt (B i + 3)
  r2 := seqAt (Q i)
  v := 0xE003000 + 0x3000 * i
  wt := trigAt (B i + 48)
  wfs := trigAt (B i + 54)
  wfe := trigAt (B i + 46)
  wnp := trigAt (B i + 46) + 4
  w1 := trigAt (B i + 49)
  w2 := trigAt (B i + 48)
  so := exVar (3 + i)
  sfs := seqAt (Q i + 1)
  sfe := trigAt (B i + 83)
  snp := trigAt (B i + 83) + 4
  sb := trigAt (B i + 84)

def ev : Nat := exVar 2
def C : SCfg := ⟨G, ev, 2, S⟩

/-! The methods -/

def noS : Nat → (b k x n m : Nat) → Option Emitted := fun _ _ _ _ _ _ => none
def divS (o1 o2 v back : Nat) : Site := ⟨D.fs, D.fe, D.np, back, constDivPow (D.a + 348) (D.q + 348) 4, [(D.q, o1), (D.a, o2)], [(D.a + 348, .var v)]⟩
def eD : Emitted := emitD D.fe noS (.base (constDivPow (D.a + 348) (D.q + 348) 4)) 0 0 D.fe 90 0
def dR : Site := divS (R.rd + 348) (exVar 0 + 348) RM.off (trigAt 125)
def tR : Stmt := .seq (.trig [] [aMem (R.rd + 348) .add (BitVec.ofNat 32 (2 ^ 32 - 0x58A364 / 4)), aMem (R.rd + 4) .set (BitVec.ofNat 32 (R.cs 0))])
      (.seqs ([1, 2, 3].map fun i => .trig [cMem (exVar 0 + 348) .exactly (BitVec.ofNat 32 i)] [aMem (R.rd + 4) .set (BitVec.ofNat 32 (R.cs i))]))
def eR : Emitted := emitD RM.fe (fun _ => callS dR) (.seq (.site 0) (.base tR)) 0 0 RM.fe 122 10

def actsR (i : Nat) : List PA := [aMem ((S i).off + 344) .set (epd cpAddr), aMem (ev + 348) .set 0]
def rdS (i : Nat) : Nat → (b k x n m : Nat) → Option Emitted
  | 0 => vpS (S i).off (S i).r1 (actsR i)
  | _ => vpS cpc (S i).r2 [aMem (cpc + 344) .set (epd cpAddr)]
def esRd (i : Nat) : ES := .seq (.site 0) (.seq (.base ((S i).rdCase ev 0 ((S i).rdCase ev 1 ((S i).rdCase ev 2 ((S i).rdLast ev))))) (.seq (.site 1) (.base (retVar (S i).fr ev))))
def eRd (i : Nat) : Emitted := emitD (S i).rfe (rdS i) (esRd i) 0 0 (S i).rfe (B i + 2) (Q i)

def jmp (i : Nat) : Nat := trigAt (B i + 53)
def swBlks (i : Nat) : List SBlk := sw4Blks ((S i).sub + 348) (trigAt (B i + 49)) (trigAt (B i + 50)) (trigAt (B i + 51)) (trigAt (B i + 52)) (jmp i) (tbl i) (S i).w2
def actsW (i : Nat) : List PA := [aMem ((S i).off + 344) .set (epd ((S i).wt + 376)), aMem ((S i).wt + 380) .set 0]
def wrS (i : Nat) : Nat → (b k x n m : Nat) → Option Emitted
  | 0 => vpS (S i).off (S i).w1 (actsW i)
  | _ => fun _ _ x n m => if x = (S i).w2 ∧ n = B i + 49 then some ⟨trigAt n, n + 5, m, swBlks i, [], []⟩ else none
def esWr (i : Nat) : ES := .seq (.site 0) (.seq (.site 1) (.base (S i).wrTail))
def eWr (i : Nat) : Emitted := emitD (S i).wfe (wrS i) (esWr i) 0 0 (S i).wfe (B i + 47) 0
def acts0 (i : Nat) : List PA := [aMem ((S i).v + 344) .set (epd ((S i).W.wr + 348)), aMem ((S i).W.wr + 328) .set 0xFF]
def es0 : ES := .seq (.site 0) (.base .brk)
def eC0 (i : Nat) : Emitted := emitD (S i).wfe (fun _ => vpS (S i).v (S i).w2 (acts0 i)) es0 (S i).w2 0 0 (B i + 55) 0
def esC (i j : Nat) : ES := .base (.seq (.trig [] [aMem ((S i).W.wr + 328) .set (BitVec.ofNat 32 (0xFF * 2 ^ (8 * j)))]) (.seq (.seqs ((List.range 8).map (bwBit (S i).W j))) .brk))
def eC (i j : Nat) : Emitted := emitD (S i).wfe noS (esC i j) (S i).w2 0 0 (B i + 47 + 9 * j) 0
def dS (i : Nat) : Site := divS ((S i).off + 348) ((S i).sub + 348) (S i).so (S i).sb
def tS (i : Nat) : Stmt := .trig [] [aMem ((S i).off + 348) .add (BitVec.ofNat 32 (2 ^ 32 - 0x58A364 / 4))]
def eS (i : Nat) : Emitted := emitD (S i).sfe (fun _ => callS (dS i)) (.seq (.site 0) (.base (tS i))) 0 0 (S i).sfe (B i + 84) (Q i + 1)

/-! `f_strnstr` -/

def F : StrStrFn where
  np := fendPtr [trigAt 310] (trigAt 311)
  fs := seqAt 52
  fe := trigAt 311
  r := trigAt 310
  str := exVar 5
  sub := exVar 6
  cnt := exVar 7
  dst := exVar 8
  b := exVar 9
  a := exVar 10
  oo := 0xE007000
  os := 0xE008000
  d := exVar 11
  e := exVar 12
  t := exVar 13
  u := exVar 14
  ta := exVar 15
  ca := trigAt 321 + 8
  te := exVar 16
  ce := trigAt 315 + 8
  k1 := seqAt 51
  k2 := seqAt 50
  k3 := trigAt 312
  n1 := trigAt 326
  n2 := trigAt 325
  n3 := trigAt 317
  n4 := seqAt 43
  v1 := trigAt 319
  v2 := seqAt 42
  ri := 0
  si := 0


def L00 : Layout := ⟨⟨[], [], []⟩, [], []⟩
def sR (L : Layout) (back v : Nat) : Site := ⟨RM.fs, RM.fe, RM.np, back, brSeekBody L D (trigAt 125) (exVar 0) R RM.off, [], [(RM.off + 348, .var v)]⟩
def sS (L : Layout) (i back v : Nat) : Site := ⟨(S i).sfs, (S i).sfe, (S i).snp, back, (S i).seekBody L D, [], [((S i).so + 348, .var v)]⟩
def sB (L : Layout) (i back o : Nat) : Site := ⟨(S i).rfs, (S i).rfe, (S i).rnp, back, (S i).rdBody L cpc ev, [((S i).fr, o)], []⟩
def sW (L : Layout) (i back v : Nat) : Site := ⟨(S i).wfs, (S i).wfe, (S i).wnp, back, (S i).wrBody L, [], [((S i).v + 348, .var v)]⟩
def readS (nxt o : Nat) (_b _k x n m : Nat) : Option Emitted :=
  if x = nxt then some ⟨trigAt n, n + 1, m, [⟨trigAt n, ⟨[], (brActs rend cpc nxt o).map PA.a⟩, some R.rd, false⟩], [], []⟩ else none

def inS : Nat → (b k x n m : Nat) → Option Emitted
  | 0 => readS F.n3 (F.d + 348)
  | _ => callS (sB L00 0 F.n4 (F.e + 348))
def esI : ES := .seq (.site 0) (.seq (.base (.ite .skip [cMem (F.d + 348) .exactly 0] F.retAdd .skip)) (.seq (.site 1)
  (.base (.ite (cmpVar F.e F.d F.te F.ce .eq).1 [(cmpVar F.e F.d F.te F.ce .eq).2] .skip .brk))))
def fS : Nat → (b k x n m : Nat) → Option Emitted
  | 0 => callS (sS L00 0 F.k1 F.str)
  | 1 => callS (sR L00 F.k2 F.sub)
  | 2 => readS F.n1 (F.b + 348)
  | 3 => callS (sB L00 0 F.n2 (F.a + 348))
  | 4 => vp2S (S 0).off (S 0).sub (F.oo + 348) (F.os + 348) F.v1
  | 5 => infS F.fe inS esI F.v1
  | 6 => vp2S F.oo F.os ((S 0).off + 348) ((S 0).sub + 348) F.v2
  | _ => callS (sR L00 F.k3 F.u)
def esF : ES := .seq (.site 0) (.seq (.site 1) (.seq (.base (.asg [⟨F.dst + 348, .set, .const (-1)⟩])) (.seq (.site 2) (.seq (.base (.ite .skip [cMem (F.b + 348) .exactly 0] (F.retS (.var F.str)) .skip))
  (.seq (.loop false (.base .skip) [cMem (F.cnt + 348) .atLeast 1]
    (.seq (.site 3) (.seq (.base (.trig [] [aMem (F.dst + 348) .add 1, aMem (F.cnt + 348) .sub 1])) (.seq (.base (.ite .skip [cMem (F.a + 348) .exactly 0] .brk .skip))
      (.seq (.base (.ite (cmpVar F.a F.b F.ta F.ca .eq).1 [(cmpVar F.a F.b F.ta F.ca .eq).2] .skip .cont))
        (.seq (.site 4) (.seq (.site 5) (.seq (.site 6) (.seq (.base (opAdd F.u F.sub (.const 1))) (.site 7))))))))) (.base .skip)) (.base (F.retS (.const (-1)))))))))
def eF : Emitted := emitD F.fe fS esF 0 0 F.fe 312 40

/-! The program -/

def sF (L : Layout) (back : Nat) : Site := ⟨F.fs, F.fe, F.np, back, F.body L C, [(F.r, r + 348)], [(F.str + 348, .var x), (F.sub + 348, .var y), (F.cnt + 348, .var n)]⟩
def bk : Nat := seqAt 62
def ops : List (StOp × Nat) := [(.seek 1 (.var x), seqAt 61), (.write 1 (.var w), trigAt 330), (.copy 1 0, seqAt 60), (.read 0 (c + 348), haltAt)]
def mS : Nat → (b k x n m : Nat) → Option Emitted
  | 0 => callS (sF L00 bk)
  | 1 => callS (sS L00 1 (seqAt 61) x)
  | 2 => callS (sW L00 1 (trigAt 330) w)
  | 3 => vp2S (S 1).off (S 1).sub ((S 0).off + 348) ((S 0).sub + 348) (seqAt 60)
  | _ => callS (sB L00 0 haltAt (c + 348))
def esM : ES := .seq (.site 0) (.seq (.site 1) (.seq (.site 2) (.seq (.site 3) (.seq (.site 4) (.base .skip)))))
def eM : Emitted := emitD retAt mS esM 0 0 haltAt 330 60

/-! Memory -/

def tab4 (i : Nat) : List (Nat × Nat) := sw4Tab (tbl i) (eC0 i).e (eC i 1).e (eC i 2).e (eC i 3).e
def rdBlk : SBlk := ⟨R.rd, ⟨[], [aMemV cpAddr .set (R.rd + 328)].map PA.a⟩, none, false⟩
def csBlk (i : Nat) : SBlk := ⟨R.cs i, ⟨[], (R.caseActs i).map PA.a⟩, some (br i), false⟩
def strPart (i : Nat) : List (List SBlk) :=
  [fendBlks [(S i).fr] (S i).rfe, (eRd i).blks, fendBlks [] (S i).wfe, (eWr i).blks, (eC0 i).blks, (eC i 1).blks, (eC i 2).blks, (eC i 3).blks, fendBlks [] (S i).sfe, (eS i).blks]
def parts : List (List SBlk) := [rendBlk rend :: tabBlks A rend 0 T.trigs, [rdBlk, csBlk 0, csBlk 1, csBlk 2, csBlk 3], fendBlks [D.q, D.a] D.fe, eD.blks, fendBlks [] RM.fe, eR.blks] ++ strPart 0 ++ strPart 1 ++
  [fendBlks [F.r] F.fe, eF.blks, eM.blks]
def sparts : List (List Blk) := [eD.seqs, eR.seqs, (eRd 0).seqs, (eS 0).seqs, (eRd 1).seqs, (eS 1).seqs, eF.seqs, eM.seqs]
def rests : List (List (Nat × Nat)) := [(eRd 0).rest, [(trigAt (B 0 + 49), (S 0).w2)], (eRd 1).rest, [(trigAt (B 1 + 49), (S 1).w2)], eF.rest]
def nv : Nat := 23
def L0 : Layout := ⟨⟨parts.flatten, sparts.flatten, (List.range nv).map exVar⟩, rests.flatten, []⟩
def pvs : List Nat := [cpc, (S 0).off, (S 0).sub, (S 0).v, (S 1).off, (S 1).sub, (S 1).v, F.oo, F.os]
def X : List (Nat × Nat) := pvs.flatMap pvPins ++ (tab4 0 ++ tab4 1)
def L : Layout := ((L0.pin X).hide (jmp 0 + 4)).hide (jmp 1 + 4)

def vs (xv yv nv wv : BitVec 32) : List (BitVec 32) := [0, 0, 0, 0, 0, 0, 0, 0, 0, 0, 0, 0, 0, 0, 0, 0, 0, xv, yv, nv, wv, 7, 7]
/-- The cached player is 5; the reader and the streams are as their constructors make them. -/
def holes : List (Nat × BitVec 32) := [(cpAddr, 5), (cpc + 348, 5), (R.rd + 4, BitVec.ofNat 32 (R.cs 0))] ++ pvs.map fun v => (v + 352, pmod .set)
/-- The memory of the game between 0x7000000 and 0x7F00000 holds `u`. -/
def mem (u : List (Nat × BitVec 32)) (xv yv nv wv : BitVec 32) : Mem := L0.mem exBuf (vs xv yv nv wv) (pinHoles X ++ holes ++ u)

theorem laid (xv yv nv wv : BitVec 32) : L0.Laid exBuf (vs xv yv nv wv) := Layout.laidB_spec (show L0.laidB exBuf 23 = true by decide +kernel)
theorem pins : L0.pinB exBuf 23 X = true := by decide +kernel
theorem laid0 : L0.Laid exBuf (vs 0 0 0 0) := laid 0 0 0 0
theorem wf : L.Wf := ((laid0.pinWf pins).hide (Layout.freeB_spec (by decide +kernel))).hide (Layout.freeB_spec (by decide +kernel))
theorem ok (u : List (Nat × BitVec 32)) (xv yv nv wv : BitVec 32) : L.Ok (mem u xv yv nv wv) := by
  unfold mem
  rw [List.append_assoc]
  have h := (laid xv yv nv wv).pinOk pins (holes ++ u)
  exact ⟨h.prog, h.mask, h.rest⟩
def cellQ (x : Nat) : Bool := L0.pinCellB X x && x != jmp 0 + 4 && x != jmp 1 + 4
theorem hcell {x : Nat} (h : (L0.pin X).cell x) (h0 : x ≠ jmp 0 + 4) (h1 : x ≠ jmp 1 + 4) : L.cell x :=
  ⟨h.1, by rw [L, Layout.hide_priv, Layout.hide_priv]; exact fun e => e.elim h1 fun e => e.elim h0 h.2⟩
theorem cell {x : Nat} (h : cellQ x = true) : L.cell x := by
  simp only [cellQ, Bool.and_eq_true, bne_iff_ne, ne_eq] at h
  exact hcell (laid0.pinCellB h.1.1) h.1.2 h.2
theorem far {x : Nat} (h1 : 0x7000000 ≤ x) (h2 : x < 0x7F00000) : L.cell x :=
  hcell (laid0.far (lo := 0x7000000) (hi := 0x7F00000) (show L0.farB X 0x7000000 0x7F00000 = true by decide +kernel) h1 h2) (by simp only [jmp, B, trigAt]; omega) (by simp only [jmp, B, trigAt]; omega)
theorem pv {v : Nat} (h : v ∈ pvs) : PVar L v := by
  have h1 : ∀ v ∈ pvs, (∀ r ∈ pvPins v, r ∈ X) ∧ (∀ o ∈ [4, 344, 348, 352], L0.Free exBuf 23 (v + o) ∧ ∀ r ∈ X, v + o ≠ r.1 + 4) ∧ jmp 0 + 4 ∉ [v + 4, v + 344, v + 348, v + 352] ∧ jmp 1 + 4 ∉ [v + 4, v + 344, v + 348, v + 352] := by
    decide +kernel
  exact ((PVar.pin laid0 (h1 v h).1 (h1 v h).2.1).hide (h1 v h).2.2.1).hide (h1 v h).2.2.2
theorem vars : ∀ v ∈ (List.range 23).map exVar, v ∈ L.P.vars := fun _ h => h

theorem bp {l : List SBlk} (k : Nat) (h : parts[k]? = some l) : ∀ b ∈ l, b ∈ L.P.blks := fun _ hb => List.mem_flatten.2 ⟨l, List.mem_of_getElem? h, hb⟩
theorem sp {l : List Blk} (k : Nat) (h : sparts[k]? = some l) : ∀ b ∈ l, b ∈ L.P.seqs := fun _ hb => List.mem_flatten.2 ⟨l, List.mem_of_getElem? h, hb⟩
theorem rp {l : List (Nat × Nat)} (k : Nat) (h : rests[k]? = some l) : ∀ r ∈ l, r ∈ L.rest := fun _ hb => List.mem_append_left _ (List.mem_flatten.2 ⟨l, List.mem_of_getElem? h, hb⟩)

theorem xr : ∀ r ∈ X, r ∈ L.rest := fun _ hr => List.mem_append_right _ hr

/-- A piece with the triggers, assignments and resting jumps at these places. -/
theorem into {E : Emitted} (k : Nat) (hk : parts[k]? = some E.blks) (hs : E.seqs = [] ∨ ∃ j : Nat, sparts[j]? = some E.seqs) (h3 : E.rest = [] ∨ ∃ j : Nat, rests[j]? = some E.rest) : E.Into L := by
  refine ⟨bp k hk, ?_, ?_⟩
  · rcases hs with e | ⟨j, e⟩
    · rw [e]; simp
    · exact sp j e
  · rcases h3 with e | ⟨j, e⟩
    · rw [e]; simp
    · exact rp j e

theorem tab : RdTab L T A rend := by
  have hc : ∀ x ∈ [rend + 4, rend + 344, rend + 348, cpAddr], cellQ x = true := by decide +kernel
  refine ⟨fun t r h => ?_, bp 0 rfl _ (.head _), cell (hc _ (by simp)), cell (hc _ (by simp)), cell (hc _ (by simp)), cell (hc _ (by simp)), by decide⟩
  have := tabBlks_mem (A := A) (rend := rend) (k := 0) h
  rw [Nat.zero_add] at this
  exact bp 0 rfl _ (.tail _ this)

theorem rdrs (i : Nat) (h : i < 4) : Reader L rend (br i) (255 * 2 ^ (8 * i)) (-(8 * i : Nat)) := by
  have : ∀ i < 4, T.req (qb i) = some (T, rt i) := by decide +kernel
  have h2 : ∀ i < 4, (qb i).mask < 2 ^ 32 := by decide +kernel
  exact Reader.of (q := qb i) wf ExRead.base [] (h2 i h) (this i h) tab

theorem rok : BRdOk L rend R br where
  b := bp 1 rfl _ (.head _)
  cb := fun i h => by
    have : i = 0 ∨ i = 1 ∨ i = 2 ∨ i = 3 := by omega
    rcases this with rfl | rfl | rfl | rfl
    · exact bp 1 rfl _ (.tail _ (.head _))
    · exact bp 1 rfl _ (.tail _ (.tail _ (.head _)))
    · exact bp 1 rfl _ (.tail _ (.tail _ (.tail _ (.head _))))
    · exact bp 1 rfl _ (.tail _ (.tail _ (.tail _ (.tail _ (.head _)))))
  rdr := rdrs
  c4 := cell (by decide +kernel)
  c348 := cell (by decide +kernel)
  lt := by decide

/-! Code -/

theorem fend {fe : Nat} (k : Nat) (h : parts[k]? = some (fendBlks [] fe)) (hc : cellQ (fe + 4) = true) : FuncEnd L fe (fe + 4) [] := fendBlks_end (frets := []) (bp k h) (cell hc) (by simp) (by simp)
theorem fend1 {fr fe : Nat} (k : Nat) (h : parts[k]? = some (fendBlks [fr] fe)) (hc : cellQ (fendPtr [fr] fe) = true ∧ cellQ (fr + 4) = true ∧ fr < 2 ^ 32) : FuncEnd L fe (fendPtr [fr] fe) [fr] :=
  fendBlks_end (bp k h) (cell hc.1) (by simp only [List.mem_singleton, forall_eq]; exact ⟨cell hc.2.1, hc.2.2⟩) (by simp)

theorem fD : FuncCode L D.fs D.fe D.np [D.q, D.a] (constDivPow (D.a + 348) (D.q + 348) 4) := by
  refine ⟨⟨0, 0, ?_⟩, fendBlks_end (bp 2 rfl) (cell (by decide +kernel)) (fun v hv => ?_) (by decide)⟩
  · rw [show D.fs = eD.e by decide +kernel]
    exact emitD_code (S := noS) (f := fun _ => .skip) (es := .base (constDivPow (D.a + 348) (D.q + 348) 4)) (fun j b k x n m E h => by simp [noS] at h) (by decide +kernel)
      (into 3 rfl (.inr ⟨0, rfl⟩) (.inl (by decide +kernel)))
  · have : ∀ v ∈ [D.q, D.a], cellQ (v + 4) = true ∧ v < 2 ^ 32 := by decide +kernel
    exact ⟨cell (this v hv).1, (this v hv).2⟩

theorem fR : FuncCode L RM.fs RM.fe RM.np [] (brSeekBody L D (trigAt 125) (exVar 0) R RM.off) := by
  refine ⟨⟨0, 0, ?_⟩, fend 4 rfl (by decide +kernel)⟩
  rw [show RM.fs = eR.e by decide +kernel]
  exact emitD_code (S := fun _ => callS dR) (f := fun _ => dR.stmt L) (es := .seq (.site 0) (.base tR)) (fun j b k x n m E h hi => callS_code wf (c := dR) fD (by decide +kernel) h hi)
    (by decide +kernel) (into 5 rfl (.inr ⟨1, rfl⟩) (.inl (by decide +kernel)))

/-- What must be checked for the stream `i`. -/
structure Chk (i : Nat) : Prop where
  p0 : parts[6 + 10 * i]? = some (fendBlks [(S i).fr] (S i).rfe)
  p1 : parts[7 + 10 * i]? = some (eRd i).blks
  p2 : parts[8 + 10 * i]? = some (fendBlks [] (S i).wfe)
  p3 : parts[9 + 10 * i]? = some (eWr i).blks
  p4 : parts[10 + 10 * i]? = some (eC0 i).blks
  p5 : parts[11 + 10 * i]? = some (eC i 1).blks
  p6 : parts[12 + 10 * i]? = some (eC i 2).blks
  p7 : parts[13 + 10 * i]? = some (eC i 3).blks
  p8 : parts[14 + 10 * i]? = some (fendBlks [] (S i).sfe)
  p9 : parts[15 + 10 * i]? = some (eS i).blks
  s0 : sparts[2 + 2 * i]? = some (eRd i).seqs
  s1 : sparts[3 + 2 * i]? = some (eS i).seqs
  r0 : rests[2 * i]? = some (eRd i).rest
  r1 : rests[2 * i + 1]? = some [(trigAt (B i + 49), (S i).w2)]
  tb : ∀ r ∈ tab4 i, r ∈ X
  hid : jmp i + 4 ∈ L.hid
  cq : cellQ (S i).rnp = true ∧ cellQ ((S i).fr + 4) = true ∧ (S i).fr < 2 ^ 32
  cw : cellQ ((S i).wfe + 4) = true
  cs : cellQ ((S i).sfe + 4) = true
  cb : cellQ ((S i).sub + 348) = true
  eR : (emitG (S i).rfe (rdS i) (esRd i) 0 0 (S i).rfe (B i + 2) (Q i)).isSome = true
  fR : (S i).rfs = (eRd i).e
  eW : (emitG (S i).wfe (wrS i) (esWr i) 0 0 (S i).wfe (B i + 47) 0).isSome = true
  fW : (S i).wfs = (eWr i).e
  wR : (eWr i).seqs = [] ∧ (eWr i).rest = []
  eC0 : (emitG (S i).wfe (fun _ => vpS (S i).v (S i).w2 (acts0 i)) es0 (S i).w2 0 0 (B i + 55) 0).isSome = true
  eC : ∀ j < 4, j ≠ 0 → (emitG (S i).wfe noS (esC i j) (S i).w2 0 0 (B i + 47 + 9 * j) 0).isSome = true
  cR : ((ExByteStream.eC0 i).seqs = [] ∧ (ExByteStream.eC0 i).rest = []) ∧ ∀ j < 4, j ≠ 0 → (ExByteStream.eC i j).seqs = [] ∧ (ExByteStream.eC i j).rest = []
  eS : (emitG (S i).sfe (fun _ => callS (dS i)) (.seq (.site 0) (.base (tS i))) 0 0 (S i).sfe (B i + 84) (Q i + 1)).isSome = true
  fS : (S i).sfs = (ExByteStream.eS i).e ∧ (ExByteStream.eS i).rest = []
  dd : L0.cellB (jmp i + 4) = true ∧ (∀ v ∈ L.P.vars, jmp i + 4 ≠ v + 328) ∧ (∀ r ∈ L.rest, r.1 ≠ jmp i) ∧ tbl i + 80 < 2 ^ 32 ∧ trigAt (B i + 50) < 2 ^ 32
  pv : (S i).off ∈ pvs ∧ (S i).sub ∈ pvs ∧ (S i).v ∈ pvs
  dn : ∀ r ∈ (dS i).rs, r.1 + 4 ≠ (dS i).nptr
  cel : ∀ x ∈ (S i).own, cellQ x = true
  nd : (S i).own.Nodup
  so : (S i).so ∈ (List.range 23).map exVar
  epd : EpdOK ((S i).off + 348) ∧ EpdOK ((S i).sub + 348) ∧ EpdOK ((S i).wt + 376) ∧ EpdOK ((S i).wt + 380)
  lab : (S i).sb < 2 ^ 32

theorem fRd {i : Nat} (h : Chk i) : FuncCode L (S i).rfs (S i).rfe (S i).rnp [(S i).fr] ((S i).rdBody L cpc ev) := by
  refine ⟨⟨0, 0, ?_⟩, fend1 _ h.p0 h.cq⟩
  rw [h.fR]
  refine emitD_code (S := rdS i) (f := fun j => match j with | 0 => vproc L (S i).off 0xFFFFFFFF (S i).r1 (actsR i) | _ => cpBack L cpc (S i).r2) (es := esRd i) ?_ h.eR (into _ h.p1 (.inr ⟨_, h.s0⟩) (.inr ⟨_, h.r0⟩))
  intro j b k x n m E he hi
  match j with
  | 0 => exact vpS_code wf (pv h.pv.1) he hi
  | _ + 1 => exact vpS_code wf (pv (by decide)) he hi

theorem fSk {i : Nat} (h : Chk i) : FuncCode L (S i).sfs (S i).sfe (S i).snp [] ((S i).seekBody L D) := by
  refine ⟨⟨0, 0, ?_⟩, fend _ h.p8 h.cs⟩
  rw [h.fS.1]
  exact emitD_code (S := fun _ => callS (dS i)) (f := fun _ => (dS i).stmt L) (es := .seq (.site 0) (.base (tS i))) (fun j b k x n m E he hi => callS_code wf (c := dS i) fD h.dn he hi)
    h.eS (into _ h.p9 (.inr ⟨_, h.s1⟩) (.inl h.fS.2))

theorem cC {i : Nat} (h : Chk i) {j : Nat} (hj : j < 4) (h0 : j ≠ 0) (hp : ∃ k : Nat, parts[k]? = some (eC i j).blks) : Code L (S i).wfe (S i).w2 0 ((esC i j).stmt fun _ => .skip) (eC i j).e 0 := by
  obtain ⟨k, hk⟩ := hp
  exact emitD_code (fun j b k x n m E h => by simp [noS] at h) (h.eC j hj h0) (into k hk (.inl (h.cR.2 j hj h0).1) (.inl (h.cR.2 j hj h0).2))

theorem cC0 {i : Nat} (h : Chk i) : Code L (S i).wfe (S i).w2 0 (es0.stmt fun _ => vproc L (S i).v 0xFFFFFFFF (S i).w2 (acts0 i)) (eC0 i).e 0 :=
  emitD_code (S := fun _ => vpS (S i).v (S i).w2 (acts0 i)) (fun j b k x n m E he hi => vpS_code wf (pv h.pv.2.2) he hi) h.eC0 (into _ h.p4 (.inl h.cR.1.1) (.inl h.cR.1.2))

theorem swCode {i : Nat} (h : Chk i) {b k : Nat} (hb : ∀ q ∈ swBlks i, q ∈ L.P.blks) : Code L (S i).wfe b k (.prim (SwRel L (fun s => s ((S i).sub + 348)) (cases0 4 (bwCase L (S i).W)))) (trigAt (B i + 49)) (S i).w2 := by
  refine sw_code wf (val := fun s => s ((S i).sub + 348)) (cases := [(0, (eC0 i).e, bwCase L (S i).W 0), (1, (eC i 1).e, bwCase L (S i).W 1), (2, (eC i 2).e, bwCase L (S i).W 2), (3, (eC i 3).e, bwCase L (S i).W 3)]) ?_ ?_
  · intro s
    have := sw4_runs (x := (S i).sub + 348) (t0 := trigAt (B i + 49)) (t1 := trigAt (B i + 50)) (t2 := trigAt (B i + 51)) (t3 := trigAt (B i + 52)) (t4 := jmp i) (tbl := tbl i) (dflt := (S i).w2) (c0 := (eC0 i).e) (c1 := (eC i 1).e) (c2 := (eC i 2).e) (c3 := (eC i 3).e) wf (cell h.cb) hb (rp _ h.r1 _ (by simp)) (fun r hr => xr r (h.tb r hr)) h.dd.2.2.2.1 h.dd.2.2.2.2 h.hid (laid0.cellB h.dd.1).1 h.dd.2.1 h.dd.2.2.1 s
    simp only [List.map_cons, List.map_nil]
    exact this
  · intro c hc
    simp only [List.mem_cons, List.not_mem_nil, or_false] at hc
    rcases hc with rfl | rfl | rfl | rfl
    · refine ⟨0, (S i).wfe, 0, ?_⟩
      show Code L _ _ _ (bwCase L (S i).W 0) _ _
      rw [bwCase, if_pos rfl]
      have := cC0 h
      simp only [es0, ES.stmt, acts0] at this
      simp only [BStr.W] at this ⊢
      exact this
    · exact ⟨0, (S i).wfe, 0, cC h (j := 1) (by decide) (by decide) ⟨_, h.p5⟩⟩
    · exact ⟨0, (S i).wfe, 0, cC h (j := 2) (by decide) (by decide) ⟨_, h.p6⟩⟩
    · exact ⟨0, (S i).wfe, 0, cC h (j := 3) (by decide) (by decide) ⟨_, h.p7⟩⟩

theorem fWr {i : Nat} (h : Chk i) : FuncCode L (S i).wfs (S i).wfe (S i).wnp [] ((S i).wrBody L) := by
  refine ⟨⟨0, 0, ?_⟩, fend _ h.p2 h.cw⟩
  rw [h.fW]
  refine emitD_code (S := wrS i) (f := fun j => match j with | 0 => vproc L (S i).off 0xFFFFFFFF (S i).w1 (actsW i) | _ => .prim (SwRel L (fun s => s ((S i).sub + 348)) (cases0 4 (bwCase L (S i).W)))) (es := esWr i) ?_ h.eW (into _ h.p3 (.inl h.wR.1) (.inl h.wR.2))
  intro j b k x n m E he hi
  match j with
  | 0 => exact vpS_code wf (pv h.pv.1) he hi
  | _ + 1 =>
    simp only [wrS] at he
    split at he
    · rename_i hx
      obtain ⟨rfl, rfl⟩ := hx
      cases he
      exact swCode h hi.blks
    · cases he

theorem chk0 : Chk 0 where
  p0 := rfl
  p1 := rfl
  p2 := rfl
  p3 := rfl
  p4 := rfl
  p5 := rfl
  p6 := rfl
  p7 := rfl
  p8 := rfl
  p9 := rfl
  s0 := rfl
  s1 := rfl
  r0 := rfl
  r1 := rfl
  tb := fun r h => List.mem_append_right _ (List.mem_append_left _ h)
  hid := by simp [L, Layout.hide]
  cq := by decide +kernel
  cw := by decide +kernel
  cs := by decide +kernel
  cb := by decide +kernel
  eR := by decide +kernel
  fR := by decide +kernel
  eW := by decide +kernel
  fW := by decide +kernel
  wR := by decide +kernel
  eC0 := by decide +kernel
  eC := by decide +kernel
  cR := by decide +kernel
  eS := by decide +kernel
  fS := by decide +kernel
  dd := by decide +kernel
  pv := by decide
  dn := by decide +kernel
  cel := by decide +kernel
  nd := by decide +kernel
  so := by decide
  epd := by decide
  lab := by decide

theorem chk1 : Chk 1 where
  p0 := rfl
  p1 := rfl
  p2 := rfl
  p3 := rfl
  p4 := rfl
  p5 := rfl
  p6 := rfl
  p7 := rfl
  p8 := rfl
  p9 := rfl
  s0 := rfl
  s1 := rfl
  r0 := rfl
  r1 := rfl
  tb := fun r h => List.mem_append_right _ (List.mem_append_right _ h)
  hid := by simp [L, Layout.hide]
  cq := by decide +kernel
  cw := by decide +kernel
  cs := by decide +kernel
  cb := by decide +kernel
  eR := by decide +kernel
  fR := by decide +kernel
  eW := by decide +kernel
  fW := by decide +kernel
  wR := by decide +kernel
  eC0 := by decide +kernel
  eC := by decide +kernel
  cR := by decide +kernel
  eS := by decide +kernel
  fS := by decide +kernel
  dd := by decide +kernel
  pv := by decide
  dn := by decide +kernel
  cel := by decide +kernel
  nd := by decide +kernel
  so := by decide
  epd := by decide
  lab := by decide

theorem chk {i : Nat} (h : i < 2) : Chk i := by
  have : i = 0 ∨ i = 1 := by omega
  rcases this with rfl | rfl
  · exact chk0
  · exact chk1

theorem sok {i : Nat} (h : i < 2) : (S i).Ok L cpc ev D where
  cel := fun x hx => cell ((chk h).cel x hx)
  nd := (chk h).nd
  pvs := ⟨pv (chk h).pv.1, pv (chk h).pv.2.1, pv (chk h).pv.2.2⟩
  so := vars _ (chk h).so
  epd := (chk h).epd
  lab := (chk h).lab
  rf := fRd (chk h)
  wf := fWr (chk h)
  sf := fSk (chk h)

/-! Static facts -/

theorem intCell : ∀ x ∈ C.ints, cellQ x = true ∧ (x < 0x7000000 ∨ 0x7F00000 ≤ x) := by decide +kernel
theorem notInt {x : Nat} (h : C.ints.contains x = false) : ¬ C.Int x := fun hx => by
  have := SCfg.ints_mem.2 hx
  simp only [List.contains_eq_mem, decide_eq_false_iff_not] at h
  exact h this
theorem farInt {x : Nat} (h1 : 0x7000000 ≤ x) (h2 : x < 0x7F00000) : ¬ C.Int x := fun hx => by have := (intCell x (SCfg.ints_mem.2 hx)).2; omega

theorem gok : G.Ok L br where
  wf := wf
  cel := fun x hx => cell (intCell x (SCfg.ints_mem.2 (.inl hx))).1
  nd := by
    rintro (_ | i | i) h
    · decide +kernel
    · show (G.own (.rd 0)).Nodup
      decide +kernel
    · exact absurd h (Nat.not_lt_zero _)
  sep := by
    have h1 : ∀ x ∈ G.own .com, x ∉ G.own (.rd 0) := by decide +kernel
    rintro (_ | i | i) (_ | j | j) hi hj hne x hx hy
    · exact hne rfl
    · exact h1 x hx hy
    · exact absurd hj (Nat.not_lt_zero _)
    · exact h1 x hy hx
    · have a : i < 1 := hi
      have b : j < 1 := hj
      exact hne (by rw [show i = j by omega])
    · exact absurd hj (Nat.not_lt_zero _)
    · exact absurd hi (Nat.not_lt_zero _)
    · exact absurd hi (Nat.not_lt_zero _)
    · exact absurd hi (Nat.not_lt_zero _)
  pc := pv (by decide)
  div := ⟨cell (by decide +kernel), cell (by decide +kernel), by decide, fD⟩
  eev := by decide
  rd := fun _ _ => rok
  rme := fun _ _ => show EpdOK (R.rd + 348) ∧ RM.off ∈ L.P.vars ∧ trigAt 125 < 2 ^ 32 from ⟨by decide, vars _ (by decide), by decide⟩
  rmf := fun _ _ => fR
  wv := fun _ h => absurd h (Nat.not_lt_zero _)
  wme := fun _ h => absurd h (Nat.not_lt_zero _)
  wf' := fun _ h => absurd h (Nat.not_lt_zero _)
  wmf := fun _ h => absurd h (Nat.not_lt_zero _)

theorem notG {x : Nat} (h : G.ints.contains x = false) : ¬ G.Int x := fun hx => by
  have := BCfg.ints_mem.2 hx
  simp only [List.contains_eq_mem, decide_eq_false_iff_not] at h
  exact h this

theorem cok : C.Ok L br where
  G := gok
  ev := ⟨vars _ (by decide), notG (by decide +kernel)⟩
  S := fun _ h => sok h
  sG := by
    have : ∀ i < 2, ∀ x ∈ (S i).own, G.ints.contains x = false ∧ x ≠ ev + 348 := by decide +kernel
    exact fun i hi x hx => ⟨notG (this i hi x hx).1, (this i hi x hx).2⟩
  sS := by
    have : ∀ x ∈ (S 0).own, x ∉ (S 1).own := by decide +kernel
    intro i (hi : i < 2) j (hj : j < 2) hn x (hx : x ∈ (S i).own) (hy : x ∈ (S j).own)
    have e : (i = 0 ∧ j = 1) ∨ (i = 1 ∧ j = 0) := by omega
    rcases e with ⟨rfl, rfl⟩ | ⟨rfl, rfl⟩
    · exact this x hx hy
    · exact this x hy hx

theorem varS {v : Nat} (h : v ∈ (List.range 23).map exVar) (hi : C.ints.contains (v + 348) = false) (he : EpdOK (v + 348)) : VarS L C v := ⟨vars v h, notInt hi, he⟩

theorem fok : F.Ok L C where
  cel := by
    have : ∀ x ∈ [F.np, F.r + 344, F.r + 348, F.ca + 8, F.ce + 8], cellQ x = true := by decide +kernel
    exact fun x hx => cell (this x hx)
  int := by
    have : ∀ x ∈ F.own, C.ints.contains x = false := by decide +kernel
    exact fun x hx => notInt (this x hx)
  vars := fun v hv => by
    have : ∀ v ∈ [F.str, F.sub, F.cnt, F.dst, F.b, F.a, F.d, F.e, F.t, F.u, F.ta, F.te], v ∈ (List.range 23).map exVar ∧ C.ints.contains (v + 348) = false ∧ EpdOK (v + 348) := by decide +kernel
    exact varS (this v hv).1 (this v hv).2.1 (this v hv).2.2
  nd := by decide +kernel
  lab := by decide
  ri := by decide
  si := by decide

theorem readS_code {nxt o : Nat} (hn : nxt < 2 ^ 32) (co : L.cell o) (eo : EpdOK o) (nd : (o :: (cpc + 348) :: (cpc + 352) :: brScr rend cpc R).Nodup) {r b k x n m : Nat} {E : Emitted} (h : readS nxt o b k x n m = some E) (hi : E.Into L) :
    Code L r b k (.prim (BReadRel L rend cpc R nxt o)) E.e x := by
  unfold readS at h
  split at h
  · rename_i hx
    cases h
    rw [hx]
    exact bread_code wf tab rok (pv (by decide)) (hi.blks _ (by simp)) ⟨by decide, hn⟩ co eo nd _ _ _
  · cases h

theorem rd0 : FuncCode L (S 0).rfs (S 0).rfe (S 0).rnp [(S 0).fr] ((S 0).rdBody L cpc ev) := fRd chk0

theorem fF : FuncCode L F.fs F.fe F.np [F.r] (F.body L C) := by
  refine ⟨⟨0, 0, ?_⟩, fend1 26 rfl (by decide +kernel)⟩
  rw [show F.fs = eF.e by decide +kernel]
  refine emitD_code (S := fS) (f := fun j => match j with
    | 0 => (sS L 0 F.k1 F.str).stmt L | 1 => (sR L F.k2 F.sub).stmt L | 2 => .prim (BReadRel L rend cpc R F.n1 (F.b + 348)) | 3 => (sB L 0 F.n2 (F.a + 348)).stmt L
    | 4 => F.save C | 5 => F.inner L C | 6 => F.restore C | _ => (sR L F.k3 F.u).stmt L) (es := esF) ?_ (by decide +kernel) (into 27 rfl (.inr ⟨6, rfl⟩) (.inr ⟨4, rfl⟩))
  intro j b k x n m E h hi
  match j with
  | 0 => exact callS_code (c := sS L 0 F.k1 F.str) wf (fSk chk0) (by intro r h; cases h) h hi
  | 1 => exact callS_code (c := sR L F.k2 F.sub) wf fR (by intro r h; cases h) h hi
  | 2 => exact readS_code (by decide) (cell (by decide +kernel)) (by decide) (by decide +kernel) h hi
  | 3 => exact callS_code (c := sB L 0 F.n2 (F.a + 348)) wf rd0 (by decide +kernel) h hi
  | 4 => exact vp2S_code wf (pv (by decide)) (pv (by decide)) (by decide) ⟨cell (by decide +kernel), by decide⟩ ⟨cell (by decide +kernel), by decide⟩ (by decide) (by decide) (by decide) h hi
  | 5 =>
    refine infS_code (f := fun j => match j with | 0 => .prim (BReadRel L rend cpc R F.n3 (F.d + 348)) | _ => (sB L 0 F.n4 (F.e + 348)).stmt L) (S := inS) (body := esI) (e0 := F.v1) ?_ h hi
    intro j b k x n m E h hi
    match j with
    | 0 => exact readS_code (by decide) (cell (by decide +kernel)) (by decide) (by decide +kernel) h hi
    | _ + 1 => exact callS_code (c := sB L 0 F.n4 (F.e + 348)) wf rd0 (by decide +kernel) h hi
  | 6 => exact vp2S_code wf (pv (by decide)) (pv (by decide)) (by decide) ⟨cell (by decide +kernel), by decide⟩ ⟨cell (by decide +kernel), by decide⟩ (by decide) (by decide) (by decide) h hi
  | _ + 7 => exact callS_code (c := sR L F.k3 F.u) wf fR (by intro r h; cases h) h hi

def prog : Stmt := .seq (F.call L C bk (r + 348) (.var x) (.var y) (.var n)) (.seqs (ops.map fun o => o.1.stmt L C o.2))

theorem code : Code L retAt 0 0 prog eM.e haltAt := by
  refine emitD_code (S := mS) (f := fun j => match j with
    | 0 => (sF L bk).stmt L | 1 => (sS L 1 (seqAt 61) x).stmt L | 2 => (sW L 1 (trigAt 330) w).stmt L | 3 => (S 1).copyTo (S 0) (seqAt 60) | _ => (sB L 0 haltAt (c + 348)).stmt L) (es := esM) ?_ (by decide +kernel)
    (into 28 rfl (.inr ⟨7, rfl⟩) (.inl (by decide +kernel)))
  intro j b k x' n m E h hi
  match j with
  | 0 => exact callS_code (c := sF L bk) wf fF (by show ∀ r' ∈ [(F.r, r + 348)], r'.1 + 4 ≠ F.np; decide +kernel) h hi
  | 1 => exact callS_code (c := sS L 1 (seqAt 61) x) wf (fSk chk1) (by intro r h; cases h) h hi
  | 2 => exact callS_code (c := sW L 1 (trigAt 330) w) wf (fWr chk1) (by intro r h; cases h) h hi
  | 3 => exact vp2S_code wf (pv (by decide)) (pv (by decide)) (by decide) ⟨cell (by decide +kernel), by decide⟩ ⟨cell (by decide +kernel), by decide⟩ (by decide) (by decide) (by decide) h hi
  | _ + 4 => exact callS_code (c := sB L 0 haltAt (c + 348)) wf rd0 (by show ∀ r' ∈ [((S 0).fr, c + 348)], r'.1 + 4 ≠ (S 0).rnp; decide +kernel) h hi

/-! The run -/

theorem argS {v : Nat} (h : v ∈ [x, y, n]) : ArgS L C F.own (.var v) := by
  rintro w hw
  cases hw
  have : ∀ v ∈ [x, y, n], v ∈ (List.range 23).map exVar ∧ C.ints.contains (v + 348) = false ∧ v + 348 ∉ F.own := by decide +kernel
  exact ⟨vars _ (this _ h).1, notInt (this _ h).2.1, (this _ h).2.2⟩

theorem srcS {v : Nat} (h : v ∈ [x, w]) : SrcS L C (.var v) := by
  rintro w hw
  cases hw
  have : ∀ v ∈ [x, w], v ∈ (List.range 23).map exVar ∧ C.ints.contains (v + 348) = false := by decide +kernel
  exact ⟨vars _ (this _ h).1, notInt (this _ h).2⟩

theorem farOwn {x : Nat} (h1 : 0x7000000 ≤ x) (h2 : x < 0x7F00000) : x ∉ F.own := fun hx => by
  have : ∀ x ∈ F.own, x < 0x7000000 ∨ 0x7F00000 ≤ x := by decide +kernel
  have := this x hx
  omega

theorem farEpd {x : Nat} (h1 : 0x7000000 ≤ x) (h2 : x < 0x7F00000) (h4 : x % 4 = 0) : EpdOK x := by
  unfold EpdOK deathTable
  omega

theorem farRd {p : Nat} (h1 : 0x7000000 ≤ p) (h2 : p < 0x7F00000) : RdS L C F.own p := ⟨(far (by omega) (by omega)).2, farInt (by omega) (by omega), farOwn (by omega) (by omega)⟩

theorem view_far (m : Mem) {x : Nat} (h1 : 0x7000000 ≤ x) (h2 : x < 0x7F00000) : L.view m x = m x := Layout.view_at (far h1 h2).2
theorem byte_far {m m' : Mem} {q : Nat} (hm : ∀ z, 0x7000000 ≤ z → z < 0x7F00000 → m z = m' z) (h1 : 0x7000000 ≤ q) (h2 : q < 0x7F00000) : byteAt m q = byteAt m' q := byteAt_congr (hm _ (by omega) (by omega))

theorem posB_eq {p i : Nat} (h : p + i < 2 ^ 32) : posB p i = p + i := Nat.mod_eq_of_lt h

/-- The machine starts with the reader and the streams at the first dword of the table of deaths. -/
theorem init (u : List (Nat × BitVec 32)) (hu : ∀ r ∈ u, 0x7000000 ≤ r.1 ∧ r.1 < 0x7F00000) (xv yv nv wv : BitVec 32) :
    SRep C 5 ⟨⟨fun _ => 0x58A364, fun _ => 0x58A364, L.view (mem u xv yv nv wv)⟩, fun _ => 0x58A364⟩ (L.view (mem u xv yv nv wv)) ∧ (∀ k : Nat, (h : k < 23) → L.view (mem u xv yv nv wv) (exVar k + 348) = (vs xv yv nv wv)[k]'h) ∧
      L.view (mem u xv yv nv wv) (F.oo + 352) = pmod .set ∧ L.view (mem u xv yv nv wv) (F.os + 352) = pmod .set := by
  have hl := laid xv yv nv wv
  have hvv : ∀ a, L.cell a → ∀ m, L.view m a = m a := fun a ha m => Layout.view_at ha.2
  have fi : ∀ z, (z < 0x7000000 ∨ 0x7F00000 ≤ z) → (pinHoles X ++ holes ++ u).find? (fun r => r.1 == z) = (pinHoles X ++ holes).find? (fun r => r.1 == z) := by
    intro z hz
    rw [List.find?_append, show List.find? (fun r => r.1 == z) u = none by
      rw [List.find?_eq_none]
      intro r hr
      have := hu r hr
      simp only [beq_iff_eq]
      omega, Option.or_none]
  have fr : ∀ z, cellQ z = true ∧ L0.Free exBuf 23 z ∧ (z < 0x7000000 ∨ 0x7F00000 ≤ z) → L.view (mem u xv yv nv wv) z = match (pinHoles X ++ holes).find? (fun r => r.1 == z) with | some r => r.2 | none => 0 := by
    intro z hz
    rw [hvv _ (cell hz.1), ← fi z hz.2.2]
    exact hl.free hz.2.1 (by decide) _
  have ho : ∀ (b : SBlk) (o : Nat), b ∈ L.P.blks → o < 2408 → b.wordAt o = none → (o = 4 → ∀ r ∈ L0.rest, r.1 ≠ b.t) → cellQ (b.t + o) = true → (b.t + o < 0x7000000 ∨ 0x7F00000 ≤ b.t + o) →
      L.view (mem u xv yv nv wv) (b.t + o) = match (pinHoles X ++ holes).find? (fun r => r.1 == b.t + o) with | some r => r.2 | none => 0 := by
    intro b o h1 h2 h3 h4 h5 h6
    rw [hvv _ (cell h5), ← fi _ h6]
    exact (hl.hole h1 h2 h3 h4 _).2
  have vv : ∀ k : Nat, (h : k < 23) → L.view (mem u xv yv nv wv) (exVar k + 348) = (vs xv yv nv wv)[k]'h := by
    intro k h
    have : ∀ k < 23, cellQ (exVar k + 348) = true := by decide +kernel
    rw [hvv _ (cell (this k h))]
    exact (hl.ok _).2 k h
  have hc : ∀ z ∈ [cpAddr, cpc + 348] ++ pvs.map (· + 352) ++ pvs.tail.map (· + 348), cellQ z = true ∧ L0.Free exBuf 23 z ∧ (z < 0x7000000 ∨ 0x7F00000 ≤ z) := by decide +kernel
  have md : ∀ v ∈ pvs, L.view (mem u xv yv nv wv) (v + 352) = pmod .set := by
    intro v hv
    have : ∀ v ∈ pvs, (match (pinHoles X ++ holes).find? (fun r => r.1 == v + 352) with | some r => r.2 | none => 0) = pmod .set := by decide +kernel
    exact (fr _ (hc _ (List.mem_append_left _ (List.mem_append_right _ (List.mem_map_of_mem hv))))).trans (this v hv)
  have z0 : ∀ v ∈ pvs.tail, L.view (mem u xv yv nv wv) (v + 348) = 0 := by
    intro v hv
    have : ∀ v ∈ pvs.tail, (match (pinHoles X ++ holes).find? (fun r => r.1 == v + 348) with | some r => r.2 | none => 0) = 0 := by decide +kernel
    exact (fr _ (hc _ (List.mem_append_right _ (List.mem_map_of_mem (f := (· + 348)) hv)))).trans (this v hv)
  have hR : R.At (L.view (mem u xv yv nv wv)) 0x58A364 := by
    refine ⟨?_, ?_⟩
    · exact (ho rdBlk 4 (bp 1 rfl _ (.head _)) (by decide) (by decide +kernel) (fun _ => by decide +kernel) (by decide +kernel) (by decide)).trans (by decide +kernel)
    · rw [show L.view (mem u xv yv nv wv) (R.rd + 348) = 0 from (ho rdBlk 348 (bp 1 rfl _ (.head _)) (by decide) (by decide +kernel) (by simp) (by decide +kernel) (by decide)).trans (by decide +kernel)]
      decide
  refine ⟨⟨⟨fun i hi => ⟨hR, (by decide : 0x58A364 < 2 ^ 32)⟩, fun i hi => absurd hi (Nat.not_lt_zero _), ⟨?_, ?_, ?_, ?_⟩, fun _ _ => rfl⟩, fun i hi => ?_, fun _ _ => rfl⟩, vv, md _ (by decide), md _ (by decide)⟩
  · exact md cpc (by decide)
  · exact (ho (rendBlk rend) 348 (bp 0 rfl _ (.head _)) (by decide) (by decide +kernel) (by simp) (by decide +kernel) (by decide)).trans (by decide +kernel)
  · exact (fr cpAddr (hc _ (by simp))).trans (by decide +kernel)
  · exact (fr (cpc + 348) (hc _ (by simp))).trans (by decide +kernel)
  · have : ∀ i < 2, (S i).off ∈ pvs.tail ∧ (S i).sub ∈ pvs.tail ∧ (S i).v ∈ pvs.tail := by decide
    obtain ⟨t1, t2, t3⟩ := this i hi
    have z2 : L.view (mem u xv yv nv wv) ((S i).sub + 348) = BitVec.ofNat 32 (0x58A364 % 4) := (z0 _ t2).trans (by decide)
    refine ⟨⟨z2, ?_⟩, (by decide : 0x58A364 < 2 ^ 32), md _ (List.mem_of_mem_tail t1), md _ (List.mem_of_mem_tail t2), md _ (List.mem_of_mem_tail t3)⟩
    show epdAddr (L.view (mem u xv yv nv wv) ((S i).off + 348)) = 0x58A364 / 4 * 4
    rw [z0 _ t1]
    decide

/-- `f_strnstr` finds the substring, one stream writes the first byte of the string, and the other one reads the second byte at the place that it took over; the rest of the memory stays, and so does the current player. -/
theorem run (u : List (Nat × BitVec 32)) (hu : ∀ r ∈ u, 0x7000000 ≤ r.1 ∧ r.1 < 0x7F00000) (xv yv nv wv : BitVec 32) (l : Nat) (hl : StrLen (mem u xv yv nv wv) yv.toNat l) (hx : 0x7000000 ≤ xv.toNat)
    (hxn : xv.toNat + nv.toNat + l + 1 < 0x7F00000) (hy : 0x7000000 ≤ yv.toNat) (hyn : yv.toNat + l < 0x7F00000) :
    ∃ m', Reaches ⟨mem u xv yv nv wv, eM.e⟩ ⟨m', haltAt⟩ ∧ StrStr (mem u xv yv nv wv) xv.toNat yv.toNat nv.toNat l (m' (r + 348)) ∧ byteAt m' xv.toNat = wv.setWidth 8 ∧
      (∀ q, 0x7000000 ≤ q → q < 0x7F00000 → q ≠ xv.toNat → byteAt m' q = byteAt (mem u xv yv nv wv) q) ∧ m' (c + 348) = (byteAt (mem u xv yv nv wv) (xv.toNat + 1)).setWidth 32 ∧ m' cpAddr = 5 := by
  obtain ⟨h0, vv, mo, ms⟩ := init u hu xv yv nv wv
  have e7 : Src.valM (L.view (mem u xv yv nv wv)) (.var x) = xv := vv 17 (by decide)
  have e8 : Src.valM (L.view (mem u xv yv nv wv)) (.var y) = yv := vv 18 (by decide)
  have e9 : Src.valM (L.view (mem u xv yv nv wv)) (.var n) = nv := vv 19 (by decide)
  have ew : L.view (mem u xv yv nv wv) (w + 348) = wv := vv 20 (by decide)
  have hb : ∀ q, 0x7000000 ≤ q ∧ q < 0x7F00000 → byteAt (L.view (mem u xv yv nv wv)) q = byteAt (mem u xv yv nv wv) q := fun q hq => byte_far (fun z h1 h2 => view_far _ h1 h2) hq.1 hq.2
  generalize hs : L.view (mem u xv yv nv wv) = s at *
  have px : ∀ i ≤ nv.toNat + l, posB xv.toNat i = xv.toNat + i := fun i hi => posB_eq (by omega)
  have py : ∀ i ≤ l, posB yv.toNat i = yv.toNat + i := fun i hi => posB_eq (by omega)
  obtain ⟨hl', -, hS⟩ := StrStrFn.StrStr_congr (m' := s) (A := fun q => 0x7000000 ≤ q ∧ q < 0x7F00000) hb (p := xv.toNat) (N := nv.toNat) hl (fun i hi => by rw [py i hi]; omega) (fun i _ _ hi _ => by rw [px i (by omega)]; omega)
  have hd := C36_strnstr (back := bk) (o := r + 348) cok fok fF (by decide) ⟨cell (by decide +kernel), by decide, notInt (by decide +kernel), by decide +kernel⟩ (argS (v := x) (by simp)) (argS (v := y) (by simp)) (argS (v := n) (by simp)) h0 mo ms
    (l := l) (by rw [e8]; exact hl')
    (fun i _ _ hi _ => by
      rw [e9] at hi
      rw [e7, px i (by omega)]
      exact farRd (by omega) (by omega))
    (fun i hi => by
      rw [e8, py i hi]
      exact farRd (by omega) (by omega))
  rw [e7, e8, e9] at hd
  have hdd : Does L prog s fun s' => ∃ (s1 : Mem) (σ : SSt), StrStr s xv.toNat yv.toNat nv.toNat l (s1 (r + 348)) ∧ (∀ z, ¬ C.Int z → z ≠ r + 348 → z ∉ F.own → s1 z = s z) ∧ s1 (x + 348) = xv ∧ s1 (w + 348) = wv ∧
      SRep C 5 (StOp.run (ops.map Prod.fst) ⟨⟨σ.rp, σ.wp, s1⟩, σ.sp⟩) s' := by
    refine Does.seq (hd.mono ?_)
    rintro s1 ⟨⟨σ1, h1⟩, h2, h3⟩
    have hxv : s1 (x + 348) = xv := by
      rw [h3 _ (notInt (by decide +kernel)) (by decide) (by decide +kernel)]
      exact e7
    have hwv : s1 (w + 348) = wv := by
      rw [h3 _ (notInt (by decide +kernel)) (by decide) (by decide +kernel)]
      exact ew
    refine (C37_stream_history cok ops h1.here (by decide) ⟨⟨by decide, srcS (by simp)⟩, ⟨by decide, srcS (by simp), ?_, ?_, ?_⟩, ⟨by decide, by decide⟩, ⟨by decide, cell (by decide +kernel), by decide, notInt (by decide +kernel), ?_, ?_⟩, trivial⟩).mono ?_
    · show EpdOK ((s1 (x + 348)).toNat / 4 * 4)
      rw [hxv]
      exact farEpd (by omega) (by omega) (by omega)
    · show L.cell ((s1 (x + 348)).toNat / 4 * 4)
      rw [hxv]
      exact far (by omega) (by omega)
    · show ¬ C.Int ((s1 (x + 348)).toNat / 4 * 4)
      rw [hxv]
      exact farInt (by omega) (by omega)
    · show ¬ L.priv (nextB (s1 (x + 348)).toNat / 4 * 4)
      rw [hxv, nextB]
      exact (far (by omega) (by omega)).2
    · show ¬ C.Int (nextB (s1 (x + 348)).toNat / 4 * 4)
      rw [hxv, nextB]
      exact farInt (by omega) (by omega)
    · exact fun s' h' => ⟨s1, σ1, h2, h3, hxv, hwv, h'⟩
  obtain ⟨s', xe, s1, σ1, h1, h2, hxv, hwv, h'⟩ := hdd
  obtain ⟨m', rr, -, hv'⟩ := C25_structured wf xe code _ (ok u xv yv nv wv) hs
  have eσ : (StOp.run (ops.map Prod.fst) ⟨⟨σ1.rp, σ1.wp, s1⟩, σ1.sp⟩).m =
      (putByte s1 xv.toNat (wv.setWidth 8)).set (c + 348) ((byteAt (putByte s1 xv.toNat (wv.setWidth 8)) (nextB xv.toNat)).setWidth 32) := by
    show (putByte s1 (s1 (x + 348)).toNat ((s1 (w + 348)).setWidth 8)).set (c + 348) ((byteAt (putByte s1 (s1 (x + 348)).toNat ((s1 (w + 348)).setWidth 8)) (nextB (s1 (x + 348)).toNat)).setWidth 32) = _
    rw [hxv, hwv]
  have nx : nextB xv.toNat = xv.toNat + 1 := by unfold nextB; omega
  have cf : c + 348 < 0x7000000 := by decide
  have rf : r + 348 < 0x7000000 := by decide
  have h1' : ∀ q, 0x7000000 ≤ q → q < 0x7F00000 → byteAt s1 q = byteAt (mem u xv yv nv wv) q := fun q g1 g2 => by
    rw [← hb q ⟨g1, g2⟩]
    exact byteAt_congr (h2 _ (farInt (by omega) (by omega)) (by omega) (farOwn (by omega) (by omega)))
  have hm : ∀ z, 0x7000000 ≤ z → z < 0x7F00000 → m' z = putByte s1 xv.toNat (wv.setWidth 8) z := fun z g1 g2 => by
    rw [← view_far m' g1 g2, hv', h'.vis z (farInt g1 g2), eσ, set_ne (by omega)]
  refine ⟨m', rr, ?_, ?_, fun q g1 g2 g3 => ?_, ?_, ?_⟩
  · rw [← Layout.view_at (L := L) (m := m') (cell (x := r + 348) (by decide +kernel)).2, hv', h'.vis _ (notInt (by decide +kernel)), eσ, set_ne (by decide), putByte_ne (by omega)]
    exact hS _ h1
  · rw [byte_far hm (by omega) (by omega), byteAt_put, if_pos rfl]
  · rw [byte_far hm g1 g2, byteAt_put, if_neg g3, h1' q g1 g2]
  · rw [← Layout.view_at (L := L) (m := m') (cell (x := c + 348) (by decide +kernel)).2, hv', h'.vis _ (notInt (by decide +kernel)), eσ, set_eq, byteAt_put, if_neg (by omega), nx, h1' _ (by omega) (by omega)]
  · rw [← Layout.view_at (L := L) (m := m') (cell (x := cpAddr) (by decide +kernel)).2, hv']
    exact h'.b.com.2.2.1

end ExByteStream

end Eud.SC
