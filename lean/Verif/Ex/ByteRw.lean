import Verif.Ex.RepMov
import Verif.Ex.ByteWrite
import Verif.Lib.ByteBlock
/-
Example for C36 and C37: `f_memcpy(x, y, n); bw.seekoffset(0x7E00001); bw.writebyte(65); br.seekoffset(x); c << br.readbyte()` in memory, for all contents of the blocks and all lengths and alignments that fit.
-/

namespace Eud.SC

namespace ExByteRw

open ExRead (tabBlks tabBlks_mem)
open ExRepMov (T)

def rend : Nat := trigAt 0
def A (t : Nat) : Nat := trigAt (t + 1)
def cpc : Nat := 0xE000000
def wv : Nat := 0xE001000
def tbl : Nat := 0xE010000
def qb (i : Nat) : RReq := .get (255 * 2 ^ (8 * i)) (-(8 * i : Nat))
def rt (i : Nat) : Nat := ((T.req (qb i)).map Prod.snd).getD 0
def br (i : Nat) : Nat := A (rt i)

def x : Nat := exVar 7
def y : Nat := exVar 8
def n : Nat := exVar 9
def c : Nat := exVar 11

def D : Div4 := ⟨trigAt 88, trigAt 87, seqAt 0, trigAt 89, fendPtr [trigAt 87, trigAt 88] (trigAt 89)⟩

def R : BRd := ⟨trigAt 82, fun i => trigAt (83 + i)⟩
def W : BWr := ⟨trigAt 132, exVar 10 + 348, wv, trigAt 132, trigAt 130, trigAt 130 + 4, fun i => trigAt (171 - i)⟩

def RM : Meth := ⟨exVar 1, seqAt 10, trigAt 121, trigAt 121 + 4⟩
def WM : Meth := ⟨exVar 2, seqAt 20, trigAt 126, trigAt 126 + 4⟩

def G : BCfg where
  rend := rend
  cpc := cpc
  ev3 := exVar 0
  D := D
  nr := 1
  nw := 1
  R := fun _ => R
  RM := fun _ => RM
  rbk := fun _ => trigAt 125
  W := fun _ => W
  WM := fun _ => WM
  wbk := fun _ => trigAt 127

/-! The methods -/

def noS : Nat → (b k x n m : Nat) → Option Emitted := fun _ _ _ _ _ _ => none
def eD : Emitted := emitD D.fe noS (.base (constDivPow (D.a + 348) (D.q + 348) 4)) 0 0 D.fe 90 0
def dR : Site := ⟨eD.e, D.fe, D.np, trigAt 125, constDivPow (D.a + 348) (D.q + 348) 4, [(D.q, R.rd + 348), (D.a, exVar 0 + 348)], [(D.a + 348, .var RM.off)]⟩
def tR : Stmt := .seq (.trig [] [aMem (R.rd + 348) .add (BitVec.ofNat 32 (2 ^ 32 - 0x58A364 / 4)), aMem (R.rd + 4) .set (BitVec.ofNat 32 (R.cs 0))])
      (.seqs ([1, 2, 3].map fun i => .trig [cMem (exVar 0 + 348) .exactly (BitVec.ofNat 32 i)] [aMem (R.rd + 4) .set (BitVec.ofNat 32 (R.cs i))]))
def eR : Emitted := emitD RM.fe (fun _ => callS dR) (.seq (.site 0) (.base tR)) 0 0 RM.fe 122 10
def dW : Site := ⟨eD.e, D.fe, D.np, trigAt 127, constDivPow (D.a + 348) (D.q + 348) 4, [(D.q, W.wr + 344), (D.a, W.sub)], [(D.a + 348, .var WM.off)]⟩
def tW : Stmt := .trig [] [aMem (W.wr + 344) .add (BitVec.ofNat 32 (2 ^ 32 - 0x58A364 / 4))]
def eW : Emitted := emitD WM.fe (fun _ => callS dW) (.seq (.site 0) (.base tW)) 0 0 WM.fe 127 20


/-! Writing -/

def swEnd : Nat := W.wr
def swS (_b _k x n m : Nat) : Option Emitted := if x = swEnd then some ⟨trigAt 133, n, m, [], [], []⟩ else none
def esW : ES := .seq (.site 0) (.base (bwTail W))
def eB : Emitted := emitD W.fe (fun _ => swS) esW 0 0 W.fe 131 30
def es0 : ES := .seq (.site 0) (.base .brk)
def acts0 : List PA := [aMem (W.v + 344) .set (epd (W.wr + 348)), aMem (W.wr + 328) .set 0xFF]
def eC0 : Emitted := emitD W.fe (fun _ => vpS wv swEnd acts0) es0 swEnd 0 0 140 30
def esC (i : Nat) : ES := .base (.seq (.trig [] [aMem (W.wr + 328) .set (BitVec.ofNat 32 (0xFF * 2 ^ (8 * i)))]) (.seq (.seqs ((List.range 8).map (bwBit W i))) .brk))
def eC1 : Emitted := emitD W.fe noS (esC 1) swEnd 0 0 141 30
def eC2 : Emitted := emitD W.fe noS (esC 2) swEnd 0 0 150 30
def eC3 : Emitted := emitD W.fe noS (esC 3) swEnd 0 0 159 30
def eK : Emitted := emitD W.fe noS (.base (.seqs ((List.range 4).map (bwConst W)))) 0 0 W.wr 168 30

/-! `_memcpy` -/

def F : MemcpyFn := ⟨trigAt 172 + 4, seqAt 34, trigAt 172, exVar 3, exVar 4, exVar 5, exVar 6, seqAt 33, trigAt 173, seqAt 32, seqAt 31⟩
def L00 : Layout := ⟨⟨[], [], []⟩, [], []⟩
def sR (L : Layout) (back v : Nat) : Site := ⟨RM.fs, RM.fe, RM.np, back, brSeekBody L D (trigAt 125) (exVar 0) R RM.off, [], [(RM.off + 348, .var v)]⟩
def sW (L : Layout) (back v : Nat) : Site := ⟨WM.fs, WM.fe, WM.np, back, bwSeekBody L D (trigAt 127) W WM.off, [], [(WM.off + 348, .var v)]⟩
def sB (L : Layout) (back v : Nat) : Site := ⟨trigAt 133, W.fe, W.np, back, bwBody L W, [], [(W.v + 348, .var v)]⟩
def readS (nxt o : Nat) (_b _k x n m : Nat) : Option Emitted :=
  if x = nxt then some ⟨trigAt n, n + 1, m, [⟨trigAt n, ⟨[], (brActs rend cpc nxt o).map PA.a⟩, some R.rd, false⟩], [], []⟩ else none
def fS : Nat → (b k x n m : Nat) → Option Emitted
  | 0 => callS (sR L00 F.k1 F.src)
  | 1 => callS (sW L00 F.k2 F.dst)
  | 2 => readS F.n1 (F.b + 348)
  | _ => callS (sB L00 F.n2 F.b)
def esF : ES := .seq (.seq (.site 0) (.seq (.site 1) (.base .skip)))
  (.loop true (.base .skip) [cMem (F.len + 348) .exactly 0] (.seq (.site 2) (.seq (.site 3) (.seq (.base (.asg [⟨F.len + 348, .add, .const (-1)⟩])) (.base .skip)))) (.base .skip))
def eF : Emitted := emitD F.fe fS esF 0 0 F.fe 173 31

/-! The program -/

def sM (L : Layout) : Site := ⟨F.fs, F.fe, F.np, seqAt 41, F.body L G, [], [(F.dst + 348, .var x), (F.src + 348, .var y), (F.len + 348, .var n)]⟩
def ops : List (BOp × Nat) := [(.wseekC 0 0x7E00001, 0), (.writeC 0 65, seqAt 40), (.rseekV 0 (.var x), trigAt 181), (.read 0 (c + 348), haltAt)]
def wcS (back b : Nat) (_b _k x n m : Nat) : Option Emitted :=
  if x = back then some ⟨trigAt n, n + 1, m, [⟨trigAt n, ⟨[], (bwConstActs W back b).map PA.a⟩, some (W.c 0), false⟩], [], []⟩ else none
def mS : Nat → (b k x n m : Nat) → Option Emitted
  | 0 => callS (sM L00)
  | 1 => wcS (seqAt 40) 65
  | 2 => callS (sR L00 (trigAt 181) x)
  | _ => readS haltAt (c + 348)
def esM : ES := .seq (.site 0) (.seq (.base (bwSeekC W 0x7E00001)) (.seq (.site 1) (.seq (.site 2) (.seq (.site 3) (.base .skip)))))
def eM : Emitted := emitD retAt mS esM 0 0 haltAt 181 40

/-! Memory -/

def swBlks : List SBlk := sw4Blks W.sub (trigAt 133) (trigAt 134) (trigAt 135) (trigAt 136) (trigAt 137) tbl swEnd
def tab4 : List (Nat × Nat) := sw4Tab tbl eC0.e eC1.e eC2.e eC3.e
def rdBlk : SBlk := ⟨R.rd, ⟨[], [aMemV cpAddr .set (R.rd + 328)].map PA.a⟩, none, false⟩
def csBlk (i : Nat) : SBlk := ⟨R.cs i, ⟨[], (R.caseActs i).map PA.a⟩, some (br i), false⟩
def parts : List (List SBlk) := [rendBlk rend :: tabBlks A rend 0 T.trigs, [rdBlk, csBlk 0, csBlk 1, csBlk 2, csBlk 3], fendBlks [D.q, D.a] D.fe, eD.blks, fendBlks [] RM.fe, eR.blks, fendBlks [] WM.fe, eW.blks,
  fendBlks [] W.fe, eB.blks, swBlks, eC0.blks, eC1.blks, eC2.blks, eC3.blks, eK.blks, fendBlks [] F.fe, eF.blks, eM.blks]
def sparts : List (List Blk) := [eD.seqs, eR.seqs, eW.seqs, eF.seqs, eM.seqs]
def L0 : Layout := ⟨⟨parts.flatten, sparts.flatten, (List.range 12).map exVar⟩, (trigAt 133, swEnd) :: eF.rest, []⟩
def X : List (Nat × Nat) := pvPins cpc ++ pvPins wv ++ tab4
def L : Layout := (L0.pin X).hide (trigAt 137 + 4)

def vs (xv yv nv : BitVec 32) : List (BitVec 32) := [0, 0, 0, 0, 0, 0, 0, xv, yv, nv, 0, 7]
/-- The cached player is 5; the reader is as `EUDByteReader()` makes it. -/
def holes : List (Nat × BitVec 32) := [(cpAddr, 5), (cpc + 348, 5), (cpc + 352, pmod .set), (wv + 352, pmod .set), (R.rd + 4, BitVec.ofNat 32 (R.cs 0))]
/-- The memory of the game between 0x7000000 and 0x7F00000 holds `u`. -/
def mem (u : List (Nat × BitVec 32)) (xv yv nv : BitVec 32) : Mem := L0.mem exBuf (vs xv yv nv) (pinHoles X ++ holes ++ u)

theorem laid (xv yv nv : BitVec 32) : L0.Laid exBuf (vs xv yv nv) := Layout.laidB_spec (show L0.laidB exBuf 12 = true by decide +kernel)
theorem pins : L0.pinB exBuf 12 X = true := by decide +kernel
theorem laid0 : L0.Laid exBuf (vs 0 0 0) := laid 0 0 0
theorem wf : L.Wf := (laid0.pinWf pins).hide (Layout.freeB_spec (by decide +kernel))
theorem ok (u : List (Nat × BitVec 32)) (xv yv nv : BitVec 32) : L.Ok (mem u xv yv nv) := by
  unfold mem
  rw [List.append_assoc]
  have h := (laid xv yv nv).pinOk pins (holes ++ u)
  exact ⟨h.prog, h.mask, h.rest⟩
def cellQ (x : Nat) : Bool := L0.pinCellB X x && x != trigAt 137 + 4
theorem hcell {x : Nat} (h : (L0.pin X).cell x) (hx : x ≠ trigAt 137 + 4) : L.cell x := ⟨h.1, by rw [L, Layout.hide_priv]; exact fun e => e.elim hx h.2⟩
theorem cell {x : Nat} (h : cellQ x = true) : L.cell x := by
  simp only [cellQ, Bool.and_eq_true, bne_iff_ne, ne_eq] at h
  exact hcell (laid0.pinCellB h.1) h.2
theorem far {x : Nat} (h1 : 0x7000000 ≤ x) (h2 : x < 0x7F00000) : L.cell x :=
  hcell (laid0.far (lo := 0x7000000) (hi := 0x7F00000) (show L0.farB X 0x7000000 0x7F00000 = true by decide +kernel) h1 h2) (by simp only [trigAt]; omega)
theorem pv {v : Nat} (h : v ∈ [cpc, wv]) : PVar L v := by
  have h1 : ∀ v ∈ [cpc, wv], (∀ r ∈ pvPins v, r ∈ X) ∧ (∀ o ∈ [4, 344, 348, 352], L0.Free exBuf 12 (v + o) ∧ ∀ r ∈ X, v + o ≠ r.1 + 4) ∧ trigAt 137 + 4 ∉ [v + 4, v + 344, v + 348, v + 352] := by
    decide +kernel
  exact (PVar.pin laid0 (h1 v h).1 (h1 v h).2.1).hide (h1 v h).2.2
theorem vars : ∀ v ∈ (List.range 12).map exVar, v ∈ L.P.vars := fun _ h => h

theorem bp {l : List SBlk} (k : Nat) (h : parts[k]? = some l) : ∀ b ∈ l, b ∈ L.P.blks := fun _ hb => List.mem_flatten.2 ⟨l, List.mem_of_getElem? h, hb⟩
theorem sp {l : List Blk} (k : Nat) (h : sparts[k]? = some l) : ∀ b ∈ l, b ∈ L.P.seqs := fun _ hb => List.mem_flatten.2 ⟨l, List.mem_of_getElem? h, hb⟩

/-- A piece with the triggers and assignments at these places. -/
theorem into {E : Emitted} (k : Nat) (hk : parts[k]? = some E.blks) (hs : E.seqs = [] ∨ ∃ j : Nat, sparts[j]? = some E.seqs) (h3 : E.rest = []) : E.Into L := by
  refine ⟨bp k hk, ?_, by rw [h3]; simp⟩
  rcases hs with e | ⟨j, e⟩
  · rw [e]; simp
  · exact sp j e

theorem tab : RdTab L T A rend := by
  have hc : ∀ x ∈ [rend + 4, rend + 344, rend + 348, cpAddr], cellQ x = true := by decide +kernel
  refine ⟨fun t r h => ?_, bp 0 rfl _ (.head _), cell (hc _ (by simp)), cell (hc _ (by simp)), cell (hc _ (by simp)), cell (hc _ (by simp)), by decide⟩
  have := tabBlks_mem (A := A) (rend := rend) (k := 0) h
  rw [Nat.zero_add] at this
  exact bp 0 rfl _ (.tail _ this)

theorem rdrs (i : Nat) (h : i < 4) : Reader L rend (br i) (255 * 2 ^ (8 * i)) (-(8 * i : Nat)) := by
  have : ∀ i < 4, T.req (qb i) = some (T, rt i) := by decide +kernel
  have h2 : ∀ i < 4, (qb i).mask < 2 ^ 32 := by decide +kernel
  exact Reader.of (q := qb i) wf ExRead.base [] (h2 i h) (this i h) tab

theorem rok : BRdOk L rend R br where
  b := bp 1 rfl _ (.head _)
  cb := fun i h => by
    have : i = 0 ∨ i = 1 ∨ i = 2 ∨ i = 3 := by omega
    rcases this with rfl | rfl | rfl | rfl
    · exact bp 1 rfl _ (.tail _ (.head _))
    · exact bp 1 rfl _ (.tail _ (.tail _ (.head _)))
    · exact bp 1 rfl _ (.tail _ (.tail _ (.tail _ (.head _))))
    · exact bp 1 rfl _ (.tail _ (.tail _ (.tail _ (.tail _ (.head _)))))
  rdr := rdrs
  c4 := cell (by decide +kernel)
  c348 := cell (by decide +kernel)
  lt := by decide

/-! Code -/

theorem fend {fe : Nat} (k : Nat) (h : parts[k]? = some (fendBlks [] fe)) (hc : cellQ (fe + 4) = true) : FuncEnd L fe (fe + 4) [] := fendBlks_end (frets := []) (bp k h) (cell hc) (by simp) (by simp)

theorem fD : FuncCode L D.fs D.fe D.np [D.q, D.a] (constDivPow (D.a + 348) (D.q + 348) 4) := by
  refine ⟨⟨0, 0, ?_⟩, fendBlks_end (bp 2 rfl) (cell (by decide +kernel)) (fun v hv => ?_) (by decide)⟩
  · rw [show D.fs = eD.e by decide +kernel]
    exact emitD_code (S := noS) (f := fun _ => .skip) (es := .base (constDivPow (D.a + 348) (D.q + 348) 4)) (fun j b k x n m E h => by simp [noS] at h) (by decide +kernel)
      (into 3 rfl (.inr ⟨0, rfl⟩) (by decide +kernel))
  · have : ∀ v ∈ [D.q, D.a], cellQ (v + 4) = true ∧ v < 2 ^ 32 := by decide +kernel
    exact ⟨cell (this v hv).1, (this v hv).2⟩

theorem fR : FuncCode L RM.fs RM.fe RM.np [] (brSeekBody L D (trigAt 125) (exVar 0) R RM.off) := by
  refine ⟨⟨0, 0, ?_⟩, fend 4 rfl (by decide +kernel)⟩
  rw [show RM.fs = eR.e by decide +kernel]
  exact emitD_code (S := fun _ => callS dR) (f := fun _ => dR.stmt L) (es := .seq (.site 0) (.base tR)) (fun j b k x n m E h hi => callS_code wf (hF := by rw [show dR.fstart = D.fs by decide +kernel]; exact fD) (by decide +kernel) h hi)
    (by decide +kernel) (into 5 rfl (.inr ⟨1, rfl⟩) (by decide +kernel))

theorem fW : FuncCode L WM.fs WM.fe WM.np [] (bwSeekBody L D (trigAt 127) W WM.off) := by
  refine ⟨⟨0, 0, ?_⟩, fend 6 rfl (by decide +kernel)⟩
  rw [show WM.fs = eW.e by decide +kernel]
  exact emitD_code (S := fun _ => callS dW) (f := fun _ => dW.stmt L) (es := .seq (.site 0) (.base tW)) (fun j b k x n m E h hi => callS_code wf (hF := by rw [show dW.fstart = D.fs by decide +kernel]; exact fD) (by decide +kernel) h hi)
    (by decide +kernel) (into 7 rfl (.inr ⟨2, rfl⟩) (by decide +kernel))

theorem cC {es : ES} {n k : Nat} (h : (emitG W.fe noS es swEnd 0 0 n 30).isSome = true) (hi : parts[k]? = some (emitD W.fe noS es swEnd 0 0 n 30).blks)
    (hs : (emitD W.fe noS es swEnd 0 0 n 30).seqs = [] ∧ (emitD W.fe noS es swEnd 0 0 n 30).rest = []) : Code L W.fe swEnd 0 (es.stmt fun _ => .skip) (emitD W.fe noS es swEnd 0 0 n 30).e 0 :=
  emitD_code (fun j b k x n m E h => by simp [noS] at h) h (into k hi (.inl hs.1) hs.2)

theorem swCode {b k : Nat} : Code L W.fe b k (.prim (SwRel L (fun s => s W.sub) (cases0 4 (bwCase L W)))) (trigAt 133) swEnd := by
  refine sw_code wf (val := fun s => s W.sub) (cases := [(0, eC0.e, bwCase L W 0), (1, eC1.e, bwCase L W 1), (2, eC2.e, bwCase L W 2), (3, eC3.e, bwCase L W 3)]) ?_ ?_
  · exact sw4_runs wf (cell (by decide +kernel)) (bp 10 rfl) (by simp [L, Layout.hide, Layout.pin, L0])
      (fun r h => by simp only [L, Layout.hide, Layout.pin, X, List.mem_append]; exact Or.inr (Or.inr h)) (by decide) (by decide) (by simp [L, Layout.hide])
      (laid0.cellB (x := trigAt 137 + 4) (by decide +kernel)).1 (by decide) (by decide +kernel)
  · intro c hc
    simp only [List.mem_cons, List.not_mem_nil, or_false] at hc
    rcases hc with rfl | rfl | rfl | rfl
    · exact ⟨0, W.fe, 0, emitD_code (S := fun _ => vpS wv swEnd acts0) (f := fun _ => vproc L wv 0xFFFFFFFF swEnd acts0) (es := es0) (fun j b k x n m E h hi => vpS_code wf (pv (by simp)) h hi) (by decide +kernel)
        (into 11 rfl (.inl (by decide +kernel)) (by decide +kernel))⟩
    · exact ⟨0, W.fe, 0, cC (es := esC 1) (n := 141) (k := 12) (by decide +kernel) rfl (by decide +kernel)⟩
    · exact ⟨0, W.fe, 0, cC (es := esC 2) (n := 150) (k := 13) (by decide +kernel) rfl (by decide +kernel)⟩
    · exact ⟨0, W.fe, 0, cC (es := esC 3) (n := 159) (k := 14) (by decide +kernel) rfl (by decide +kernel)⟩

theorem fendW : FuncEnd L W.fe W.np [] := fend 8 rfl (by decide +kernel)
theorem fB : FuncCode L (trigAt 133) W.fe W.np [] (bwBody L W) := by
  refine ⟨⟨0, 0, ?_⟩, fendW⟩
  rw [show trigAt 133 = eB.e by decide +kernel]
  refine emitD_code (S := fun _ => swS) (f := fun _ => .prim (SwRel L (fun s => s W.sub) (cases0 4 (bwCase L W)))) (es := esW) ?_ (by decide +kernel) (into 9 rfl (.inl (by decide +kernel)) (by decide +kernel))
  intro j b k x n m E h hi
  simp only [swS] at h
  split at h
  · rename_i hx
    cases h
    rw [hx]
    exact swCode
  · cases h

theorem cK : Code L W.fe 0 0 (bwConstBody W) (W.c 0) W.fe := by
  refine .seq (m := W.wr) ?_ ?_
  · rw [show W.c 0 = eK.e by decide +kernel]
    exact emitD_code (S := noS) (f := fun _ => .skip) (es := .base (.seqs ((List.range 4).map (bwConst W)))) (fun j b k x n m E h => by simp [noS] at h) (by decide +kernel) (into 15 rfl (.inl (by decide +kernel)) (by decide +kernel))
  · rw [show W.wr = (emitD W.fe noS (.base (bwTail W)) 0 0 W.fe 131 30).e by decide +kernel]
    exact emitD_code (S := noS) (f := fun _ => .skip) (es := .base (bwTail W)) (fun j b k x n m E h => by simp [noS] at h) (by decide +kernel) (into 9 (by decide +kernel) (.inl (by decide +kernel)) (by decide +kernel))

theorem readS_code {nxt o : Nat} (hn : nxt < 2 ^ 32) (co : L.cell o) (eo : EpdOK o) (nd : (o :: (cpc + 348) :: (cpc + 352) :: brScr rend cpc R).Nodup) {r b k x n m : Nat} {E : Emitted} (h : readS nxt o b k x n m = some E) (hi : E.Into L) :
    Code L r b k (.prim (BReadRel L rend cpc R nxt o)) E.e x := by
  unfold readS at h
  split at h
  · rename_i hx
    cases h
    rw [hx]
    exact bread_code wf tab rok (pv (by simp)) (hi.blks _ (by simp)) ⟨by decide, hn⟩ co eo nd _ _ _
  · cases h

theorem wcS_code {back w : Nat} (hb : back < 2 ^ 32) {r b k x n m : Nat} {E : Emitted} (h : wcS back w b k x n m = some E) (hi : E.Into L) : Code L r b k (.prim (BWConstRel L W back w)) E.e x := by
  unfold wcS at h
  split at h
  · rename_i hx
    cases h
    rw [hx]
    exact bwConst_code wf fendW hb cK (hi.blks _ (by simp)) _ _ _
  · cases h

theorem fF : FuncCode L F.fs F.fe F.np [] (F.body L G) := by
  refine ⟨⟨0, 0, ?_⟩, fend 16 rfl (by decide +kernel)⟩
  rw [show F.fs = eF.e by decide +kernel]
  refine emitD_code (S := fS) (f := fun j => match j with | 0 => (sR L F.k1 F.src).stmt L | 1 => (sW L F.k2 F.dst).stmt L | 2 => .prim (BReadRel L rend cpc R F.n1 (F.b + 348)) | _ => (sB L F.n2 F.b).stmt L) (es := esF) ?_ (by decide +kernel)
    ⟨bp 17 rfl, sp 3 rfl, fun r h => List.mem_append_left _ (List.mem_cons_of_mem _ h)⟩
  intro j b k x n m E h hi
  match j with
  | 0 => exact callS_code (c := sR L F.k1 F.src) wf fR (by decide) h hi
  | 1 => exact callS_code (c := sW L F.k2 F.dst) wf fW (by decide) h hi
  | 2 => exact readS_code (by decide) (cell (by decide +kernel)) (by decide) (by decide +kernel) h hi
  | _ + 3 => exact callS_code (c := sB L F.n2 F.b) wf fB (by decide) h hi

def prog : Stmt := .seq (F.call L G (seqAt 41) (.var x) (.var y) (.var n)) (.seqs (ops.map fun o => o.1.stmt L G o.2))

theorem code : Code L retAt 0 0 prog eM.e haltAt := by
  refine emitD_code (S := mS) (f := fun j => match j with | 0 => (sM L).stmt L | 1 => .prim (BWConstRel L W (seqAt 40) 65) | 2 => (sR L (trigAt 181) x).stmt L | _ => .prim (BReadRel L rend cpc R haltAt (c + 348))) (es := esM) ?_ (by decide +kernel)
    (into 18 rfl (.inr ⟨4, rfl⟩) (by decide +kernel))
  intro j b k x' n m E h hi
  match j with
  | 0 => exact callS_code (c := sM L) wf fF (by intro r h; cases h) h hi
  | 1 => exact wcS_code (by decide) h hi
  | 2 => exact callS_code (c := sR L (trigAt 181) x) wf fR (by decide) h hi
  | _ + 3 => exact readS_code (by decide) (cell (by decide +kernel)) (by decide) (by decide +kernel) h hi

/-! Static facts -/

theorem intCell : ∀ x ∈ G.ints, cellQ x = true ∧ (x < 0x7000000 ∨ 0x7F00000 ≤ x) := by decide +kernel
theorem notInt {x : Nat} (h : G.ints.contains x = false) : ¬ G.Int x := fun hx => by
  have := BCfg.ints_mem.2 hx
  simp only [List.contains_eq_mem, decide_eq_false_iff_not] at h
  exact h this
theorem farInt {x : Nat} (h1 : 0x7000000 ≤ x) (h2 : x < 0x7F00000) : ¬ G.Int x := fun hx => by have := (intCell x (BCfg.ints_mem.2 hx)).2; omega

theorem gok : G.Ok L br where
  wf := wf
  cel := fun x hx => cell (intCell x (BCfg.ints_mem.2 hx)).1
  nd := by
    rintro (_ | i | i) h
    · decide +kernel
    · show (G.own (.rd 0)).Nodup
      decide +kernel
    · show (G.own (.wr 0)).Nodup
      decide +kernel
  sep := by
    have h1 : ∀ x ∈ G.own .com, x ∉ G.own (.rd 0) ∧ x ∉ G.own (.wr 0) := by decide +kernel
    have h2 : ∀ x ∈ G.own (.rd 0), x ∉ G.own (.wr 0) := by decide +kernel
    rintro (_ | i | i) (_ | j | j) hi hj hne x hx hy
    · exact hne rfl
    · exact (h1 x hx).1 hy
    · exact (h1 x hx).2 hy
    · exact (h1 x hy).1 hx
    · have a : i < 1 := hi
      have b : j < 1 := hj
      exact hne (by rw [show i = j by omega])
    · exact h2 x hx hy
    · exact (h1 x hy).2 hx
    · exact h2 x hy hx
    · have a : i < 1 := hi
      have b : j < 1 := hj
      exact hne (by rw [show i = j by omega])
  pc := pv (by decide)
  div := ⟨cell (by decide +kernel), cell (by decide +kernel), by decide, fD⟩
  eev := by decide
  rd := fun _ _ => rok
  rme := fun _ _ => show EpdOK (R.rd + 348) ∧ RM.off ∈ L.P.vars ∧ trigAt 125 < 2 ^ 32 from ⟨by decide, vars _ (by decide), by decide⟩
  rmf := fun _ _ => fR
  wv := fun _ _ => show PVar L wv from pv (by decide)
  wme := fun _ _ => show EpdOK (W.wr + 344) ∧ EpdOK (W.wr + 348) ∧ EpdOK W.sub ∧ WM.off ∈ L.P.vars ∧ trigAt 127 < 2 ^ 32 from ⟨by decide, by decide, by decide, vars _ (by decide), by decide⟩
  wf' := fun _ _ => ⟨_, fB⟩
  wmf := fun _ _ => fW

theorem varU {v : Nat} (h : v ∈ (List.range 12).map exVar) (hi : G.ints.contains (v + 348) = false) (he : EpdOK (v + 348)) : VarU L G v := ⟨vars v h, notInt hi, he⟩

theorem fok : MemcpyOk L G F where
  cn := cell (by decide +kernel)
  inp := notInt (by decide +kernel)
  vars := fun v hv => by
    have : ∀ v ∈ [F.dst, F.src, F.len, F.b], v ∈ (List.range 12).map exVar ∧ G.ints.contains (v + 348) = false ∧ EpdOK (v + 348) := by decide +kernel
    exact varU (this v hv).1 (this v hv).2.1 (this v hv).2.2
  nd := by decide +kernel
  lab := by decide
  func := fF

/-! The run -/

theorem argU {v : Nat} (h : v ∈ [x, y, n]) : ArgU L G F.own (.var v) := by
  rintro w hw
  cases hw
  have : ∀ v ∈ [x, y, n], v ∈ (List.range 12).map exVar ∧ G.ints.contains (v + 348) = false ∧ v + 348 ∉ F.own := by decide +kernel
  exact ⟨vars _ (this _ h).1, notInt (this _ h).2.1, (this _ h).2.2⟩

theorem farOwn {x : Nat} (h1 : 0x7000000 ≤ x) (h2 : x < 0x7F00000) : x ∉ F.own := fun hx => by
  have : ∀ x ∈ F.own, x < 0x7000000 ∨ 0x7F00000 ≤ x := by decide +kernel
  have := this x hx
  omega

theorem farEpd {x : Nat} (h1 : 0x7000000 ≤ x) (h2 : x < 0x7F00000) (h4 : x % 4 = 0) : EpdOK x := by
  unfold EpdOK deathTable
  omega

theorem view_far (m : Mem) {x : Nat} (h1 : 0x7000000 ≤ x) (h2 : x < 0x7F00000) : L.view m x = m x := Layout.view_at (far h1 h2).2
theorem byte_far {m m' : Mem} {q : Nat} (hm : ∀ z, 0x7000000 ≤ z → z < 0x7F00000 → m z = m' z) (h1 : 0x7000000 ≤ q) (h2 : q < 0x7F00000) : byteAt m q = byteAt m' q := byteAt_congr (hm _ (by omega) (by omega))

theorem posB_eq {p i : Nat} (h : p + i < 2 ^ 32) : posB p i = p + i := Nat.mod_eq_of_lt h

/-- The machine starts with the reader and the writer at the first dword of the table of deaths. -/
theorem init (u : List (Nat × BitVec 32)) (hu : ∀ r ∈ u, 0x7000000 ≤ r.1 ∧ r.1 < 0x7F00000) (xv yv nv : BitVec 32) :
    BRep G 5 ⟨fun _ => 0x58A364, fun _ => 0x58A364, L.view (mem u xv yv nv)⟩ (L.view (mem u xv yv nv)) ∧ ∀ k : Nat, (h : k < 12) → L.view (mem u xv yv nv) (exVar k + 348) = (vs xv yv nv)[k]'h := by
  have hl := laid xv yv nv
  have hvv : ∀ a, L.cell a → ∀ m, L.view m a = m a := fun a ha m => Layout.view_at ha.2
  have fi : ∀ z, (z < 0x7000000 ∨ 0x7F00000 ≤ z) → (pinHoles X ++ holes ++ u).find? (fun r => r.1 == z) = (pinHoles X ++ holes).find? (fun r => r.1 == z) := by
    intro z hz
    rw [List.find?_append, show List.find? (fun r => r.1 == z) u = none by
      rw [List.find?_eq_none]
      intro r hr
      have := hu r hr
      simp only [beq_iff_eq]
      omega, Option.or_none]
  have fr : ∀ z, cellQ z = true ∧ L0.Free exBuf 12 z ∧ (z < 0x7000000 ∨ 0x7F00000 ≤ z) → L.view (mem u xv yv nv) z = match (pinHoles X ++ holes).find? (fun r => r.1 == z) with | some r => r.2 | none => 0 := by
    intro z hz
    rw [hvv _ (cell hz.1), ← fi z hz.2.2]
    exact hl.free hz.2.1 (by decide) _
  have ho : ∀ (b : SBlk) (o : Nat), b ∈ L.P.blks → o < 2408 → b.wordAt o = none → (o = 4 → ∀ r ∈ L0.rest, r.1 ≠ b.t) → cellQ (b.t + o) = true → (b.t + o < 0x7000000 ∨ 0x7F00000 ≤ b.t + o) →
      L.view (mem u xv yv nv) (b.t + o) = match (pinHoles X ++ holes).find? (fun r => r.1 == b.t + o) with | some r => r.2 | none => 0 := by
    intro b o h1 h2 h3 h4 h5 h6
    rw [hvv _ (cell h5), ← fi _ h6]
    exact (hl.hole h1 h2 h3 h4 _).2
  have vv : ∀ k : Nat, (h : k < 12) → L.view (mem u xv yv nv) (exVar k + 348) = (vs xv yv nv)[k]'h := by
    intro k h
    have : ∀ k < 12, cellQ (exVar k + 348) = true := by decide +kernel
    rw [hvv _ (cell (this k h))]
    exact (hl.ok _).2 k h
  have hc : ∀ z ∈ [cpAddr, cpc + 348, cpc + 352, wv + 352], cellQ z = true ∧ L0.Free exBuf 12 z ∧ (z < 0x7000000 ∨ 0x7F00000 ≤ z) := by decide +kernel
  have wb : (⟨W.wr, ⟨[], [aHole (W.wr + 328), aMem W.sub .add 1, aMem (W.wr + 348) .set 0].map PA.a⟩, some (trigAt 131), false⟩ : SBlk) ∈ L.P.blks := bp 9 rfl _ (by
    rw [show eB.blks = [eB.blks.head (by decide +kernel), ⟨W.wr, ⟨[], [aHole (W.wr + 328), aMem W.sub .add 1, aMem (W.wr + 348) .set 0].map PA.a⟩, some (trigAt 131), false⟩] by decide +kernel]
    simp)
  have hR : R.At (L.view (mem u xv yv nv)) 0x58A364 := by
    refine ⟨?_, ?_⟩
    · exact (ho rdBlk 4 (bp 1 rfl _ (.head _)) (by decide) (by decide +kernel) (fun _ => by decide +kernel) (by decide +kernel) (by decide)).trans (by decide +kernel)
    · rw [show L.view (mem u xv yv nv) (R.rd + 348) = 0 from (ho rdBlk 348 (bp 1 rfl _ (.head _)) (by decide) (by decide +kernel) (by simp) (by decide +kernel) (by decide)).trans (by decide +kernel)]
      decide
  have hW : W.At (L.view (mem u xv yv nv)) 0x58A364 := by
    refine ⟨vv 10 (by decide), ?_, ?_⟩
    · rw [show L.view (mem u xv yv nv) (W.wr + 344) = 0 from (ho _ 344 wb (by decide) (by decide +kernel) (by simp) (by decide +kernel) (by decide)).trans (by decide +kernel)]
      decide
    · exact (ho _ 348 wb (by decide) (by decide +kernel) (by simp) (by decide +kernel) (by decide)).trans (by decide +kernel)
  refine ⟨⟨fun i hi => ⟨hR, (by decide : 0x58A364 < 2 ^ 32)⟩, fun i hi => ⟨hW, (by decide : 0x58A364 < 2 ^ 32), ?_⟩, ⟨?_, ?_, ?_, ?_⟩, fun _ _ => rfl⟩, vv⟩
  · exact (fr (wv + 352) (hc _ (by simp))).trans (by decide +kernel)
  · exact (fr (cpc + 352) (hc _ (by simp))).trans (by decide +kernel)
  · exact (ho (rendBlk rend) 348 (bp 0 rfl _ (.head _)) (by decide) (by decide +kernel) (by simp) (by decide +kernel) (by decide)).trans (by decide +kernel)
  · exact (fr cpAddr (hc _ (by simp))).trans (by decide +kernel)
  · exact (fr (cpc + 348) (hc _ (by simp))).trans (by decide +kernel)

/-- The block is copied, one byte is written elsewhere, and the first byte of the copy is read back; the rest of the memory stays, and so does the current player. -/
theorem run (u : List (Nat × BitVec 32)) (hu : ∀ r ∈ u, 0x7000000 ≤ r.1 ∧ r.1 < 0x7F00000) (xv yv nv : BitVec 32) (hx : 0x7000000 ≤ xv.toNat ∧ xv.toNat < 0x7E00000) (hxn : xv.toNat + nv.toNat ≤ 0x7E00000)
    (hy : 0x7000000 ≤ yv.toNat) (hyn : yv.toNat + nv.toNat ≤ 0x7E00000) (hov : xv.toNat ≤ yv.toNat ∨ yv.toNat + nv.toNat ≤ xv.toNat) :
    ∃ m', Reaches ⟨mem u xv yv nv, eM.e⟩ ⟨m', haltAt⟩ ∧ (∀ i < nv.toNat, byteAt m' (xv.toNat + i) = byteAt (mem u xv yv nv) (yv.toNat + i)) ∧ byteAt m' 0x7E00001 = 65 ∧
      (∀ q, 0x7000000 ≤ q → q < 0x7F00000 → q ≠ 0x7E00001 → (q < xv.toNat ∨ xv.toNat + nv.toNat ≤ q) → byteAt m' q = byteAt (mem u xv yv nv) q) ∧
      m' (c + 348) = (byteAt m' xv.toNat).setWidth 32 ∧ m' cpAddr = 5 := by
  obtain ⟨h0, vv⟩ := init u hu xv yv nv
  have e7 : Src.valM (L.view (mem u xv yv nv)) (.var x) = xv := vv 7 (by decide)
  have e8 : Src.valM (L.view (mem u xv yv nv)) (.var y) = yv := vv 8 (by decide)
  have e9 : Src.valM (L.view (mem u xv yv nv)) (.var n) = nv := vv 9 (by decide)
  have hb : ∀ q, 0x7000000 ≤ q → q < 0x7F00000 → byteAt (L.view (mem u xv yv nv)) q = byteAt (mem u xv yv nv) q := fun q => byte_far fun z h1 h2 => view_far _ h1 h2
  generalize hs : L.view (mem u xv yv nv) = s at *
  have px : ∀ i ≤ nv.toNat, posB xv.toNat i = xv.toNat + i := fun i hi => posB_eq (by omega)
  have py : ∀ i ≤ nv.toNat, posB yv.toNat i = yv.toNat + i := fun i hi => posB_eq (by omega)
  have hov' : ∀ i j, i < j → j < nv.toNat → posB xv.toNat i ≠ posB yv.toNat j := fun i j h1 h2 => by rw [px i (by omega), py j (by omega)]; omega
  have hd := C36_memcpy (back := seqAt 41) gok (by decide) (by decide) fok (by decide) (argU (v := x) (by simp)) (argU (v := y) (by simp)) (argU (v := n) (by simp)) h0
    (fun i hi => by
      rw [e9] at hi
      rw [e8, py i (by omega)]
      exact ⟨(far (by omega) (by omega)).2, farInt (by omega) (by omega), farOwn (by omega) (by omega)⟩)
    (fun i hi => by
      rw [e9] at hi
      rw [e7, px i (by omega)]
      exact ⟨farEpd (by omega) (by omega) (by omega), far (by omega) (by omega), farInt (by omega) (by omega), farOwn (by omega) (by omega)⟩)
  rw [e7, e8, e9] at hd
  have hdd : Does L prog s fun s' => ∃ (s1 : Mem) (σ : BSt), (∀ z, ¬ G.Int z → z ∉ F.own → s1 z = cpyB s xv.toNat yv.toNat nv.toNat z) ∧ s1 (x + 348) = xv ∧ BRep G 5 (BOp.run (ops.map Prod.fst) { σ with m := s1 }) s' := by
    refine Does.seq (hd.mono ?_)
    rintro s1 ⟨⟨σ1, h1⟩, h2⟩
    have hxv : s1 (x + 348) = xv := by
      rw [h2 _ (notInt (by decide +kernel)) (by decide +kernel), cpyB_out fun i hi => ?_]
      · exact e7
      · rw [px i (by omega)]
        have : x + 348 < 0x7000000 := by decide
        omega
    have hr : (Src.valM (putByte s1 0x7E00001 (BitVec.ofNat 8 65)) (.var x)).toNat = xv.toNat := by rw [valM_var, putByte_ne (by decide), hxv]
    refine (C37_history gok ops h1.here (by decide) ⟨⟨by decide, by decide⟩, ⟨by decide, farEpd (x := 0x7E00001 / 4 * 4) (by decide) (by decide) (by decide), far (x := 0x7E00001 / 4 * 4) (by decide) (by decide), farInt (x := 0x7E00001 / 4 * 4) (by decide) (by decide)⟩, ⟨by decide, fun v hv => ?_⟩,
      ⟨by decide, cell (by decide +kernel), by decide, notInt (by decide +kernel), ?_, ?_⟩, trivial⟩).mono ?_
    · exact ⟨(argU (v := x) (by simp) v hv).1, (argU (v := x) (by simp) v hv).2.1⟩
    · show ¬ L.priv ((Src.valM (putByte s1 0x7E00001 (BitVec.ofNat 8 65)) (.var x)).toNat / 4 * 4)
      rw [hr]
      exact (far (by omega) (by omega)).2
    · show ¬ G.Int ((Src.valM (putByte s1 0x7E00001 (BitVec.ofNat 8 65)) (.var x)).toNat / 4 * 4)
      rw [hr]
      exact farInt (by omega) (by omega)
    · exact fun s' h' => ⟨s1, σ1, h2, hxv, h'⟩
  obtain ⟨s', xe, s1, σ1, h1, hxv, h'⟩ := hdd
  obtain ⟨m', rr, -, hv'⟩ := C25_structured wf xe code _ (ok u xv yv nv) hs
  have eσ : (BOp.run (ops.map Prod.fst) { σ1 with m := s1 }).m = (putByte s1 0x7E00001 65).set (c + 348) ((byteAt (putByte s1 0x7E00001 65) xv.toNat).setWidth 32) := by
    have hr : (Src.valM (putByte s1 0x7E00001 (BitVec.ofNat 8 65)) (.var x)).toNat = xv.toNat := by rw [valM_var, putByte_ne (by decide), hxv]
    show (putByte s1 0x7E00001 (BitVec.ofNat 8 65)).set (c + 348) ((byteAt (putByte s1 0x7E00001 (BitVec.ofNat 8 65)) (Src.valM (putByte s1 0x7E00001 (BitVec.ofNat 8 65)) (.var x)).toNat).setWidth 32) = _
    rw [hr]
    rfl
  have cf : c + 348 < 0x7000000 := by decide
  have hm : ∀ z, 0x7000000 ≤ z → z < 0x7F00000 → m' z = putByte s1 0x7E00001 65 z := fun z g1 g2 => by
    rw [← view_far m' g1 g2, hv', h'.vis z (farInt g1 g2), eσ, set_ne (by omega)]
  have hB : ∀ q, 0x7000000 ≤ q → q < 0x7F00000 → q ≠ 0x7E00001 → byteAt m' q = byteAt (cpyB s xv.toNat yv.toNat nv.toNat) q := fun q g1 g2 g3 => by
    rw [byte_far hm g1 g2, byteAt_put, if_neg g3, byteAt_congr (h1 _ (farInt (by omega) (by omega)) (farOwn (by omega) (by omega)))]
  refine ⟨m', rr, fun i hi => ?_, ?_, fun q g1 g2 g3 g4 => ?_, ?_, ?_⟩
  · rw [hB _ (by omega) (by omega) (by omega), ← px i (by omega), cpyB_spec (by omega) hov' i hi, py i (by omega), hb _ (by omega) (by omega)]
  · rw [byte_far hm (by decide) (by decide), byteAt_put, if_pos rfl]
  · rw [hB q g1 g2 g3, cpyB_other fun i hi => by rw [px i (by omega)]; omega, hb q g1 g2]
  · rw [byte_far hm (by omega) (by omega), ← Layout.view_at (L := L) (m := m') (cell (x := c + 348) (by decide +kernel)).2, hv', h'.vis _ (notInt (by decide +kernel)), eσ, set_eq]
  · rw [← Layout.view_at (L := L) (m := m') (cell (x := cpAddr) (by decide +kernel)).2, hv']
    exact h'.com.2.2.1

end ExByteRw

end Eud.SC
