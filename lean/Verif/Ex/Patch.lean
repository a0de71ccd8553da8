import Verif.Ex.RepMov
import Verif.Lib.PatchHist
/-
Example for C47: `f_dwpatch_epd(EPD(a), x); f_blockpatch_epd(EPD(d), EPD(s), n); f_dwpatch_epd(EPD(a), y); f_unpatchall()` in memory, for all `x`, `y` and all `n` up to 256, with stacks of 8192 patches.
-/

namespace Eud.SC

namespace ExPatch

open ExRead (tabBlks tabBlks_mem some_getD)
open ExRepMov (T q1 rt)

def rend : Nat := trigAt 0
def A (t : Nat) : Nat := trigAt (t + 1)
def rd : Nat := A rt
def t0 : Nat := trigAt 82
def ls : Nat := trigAt 83
def cn : Nat := trigAt 84
def fe : Nat := trigAt 85
/-- Triggers of the patch functions. -/
def pr (n : Nat) : Nat := trigAt (86 + n)

def pvs : List Nat := [0xE000000, 0xE010000, 0xE020000, 0xE030000, 0xE040000, 0xE050000]
def x : Nat := exVar 11
def y : Nat := exVar 12
def n : Nat := exVar 13

def a : Nat := 0x7000000
def bd : Nat := 0x7001000
def bs : Nat := 0x7002000

def G : PCfg where
  rend := rend
  cpc := 0xE000000
  ls := ls
  np := fe + 4
  ps := exVar 0
  dws := exVar 1
  d := 0xE010000
  v := 0xE020000
  pos := 0xE030000
  prev := 0xE040000
  p1 := pr 7 + 328
  rp := pr 10 + 4
  ru := pr 17 + 4
  t1 := exVar 2
  t2 := exVar 3
  t3 := exVar 4
  o1 := exVar 5
  o2 := exVar 6
  o3 := exVar 7
  bd := exVar 8
  bs := exVar 9
  bn := 0xE050000
  cd := exVar 10
  eb := pr 26
  rb := pr 28 + 4
  pb := 0x7010000
  db := 0x7030000
  tb := 0x7040000
  cap := 8192

/-! The sequences of assignments, last first -/

def r0 : Option (Nat × List Blk) := emitAsg (pr 1) 0 (sumAsg G.pos (.const (epd G.db)) (.var G.dws))
def fst (r : Option (Nat × List Blk)) : Nat := (r.getD (0, [])).1
def snd (r : Option (Nat × List Blk)) : List Blk := (r.getD (0, [])).2
def argsU : List (Nat × Src) := repArgs G.rend G.ls (.var G.o3) (.var G.o2) (.var G.o1)
def rU : Option (Nat × List Blk) := emitAsg t0 10 (callAsg G.np (pr 11) [] argsU)
def q3 : Option (Nat × List Blk) := emitAsg rd 20 (epdOps G.rend G.cpc (fst rU) (G.o3 + 348) (.var G.t3) none)
def p3 : Option (Nat × List Blk) := emitAsg (fst q3) 30 (sumAsg G.t3 (.const (epd G.pb)) (.var G.ps))
def q2 : Option (Nat × List Blk) := emitAsg rd 40 (epdOps G.rend G.cpc (pr 16) (G.o2 + 348) (.var G.t2) none)
def p2 : Option (Nat × List Blk) := emitAsg (fst q2) 50 (sumAsg G.t2 (.const (epd G.pb)) (.var G.ps))
def q1' : Option (Nat × List Blk) := emitAsg rd 60 (epdOps G.rend G.cpc (pr 15) (G.o1 + 348) (.var G.t1) none)
def p1 : Option (Nat × List Blk) := emitAsg (fst q1') 70 (sumAsg G.t1 (.const (epd G.pb)) (.var G.ps))
def args1 : List (Nat × Src) := repArgs G.rend G.ls (.const (epd G.tb)) (.var G.bd) (.var G.cd)
def args2 : List (Nat × Src) := repArgs G.rend G.ls (.var G.bd) (.var G.bs) (.var G.cd)
def args3 : List (Nat × Src) := repArgs G.rend G.ls (.var G.bs) (.const (epd G.tb)) (.var G.cd)
def c3 : Option (Nat × List Blk) := emitAsg t0 80 (callAsg G.np (pr 24) [] args3)
def c2 : Option (Nat × List Blk) := emitAsg t0 90 (callAsg G.np (fst c3) [] args2)
def c1 : Option (Nat × List Blk) := emitAsg t0 100 (callAsg G.np (fst c2) [] args1)
def init : List Asg := [⟨G.dws + 348, .add, .const 1⟩, ⟨G.cd + 348, .set, .const 256⟩, ⟨G.eb + 4, .set, .const (BitVec.ofNat 32 (pr 27))⟩]
def rI : Option (Nat × List Blk) := emitAsg (pr 24) 110 init

/-! The program -/

def m4 : Option (Nat × List Blk) := emitAsg (pr 11) 120 (callAsg G.ru haltAt [] [])
def m3 : Option (Nat × List Blk) := emitAsg (pr 0) 130 (callAsg G.rp (fst m4) [] [(G.d + 348, .const (epd a)), (G.v + 348, .var y)])
def m2 : Option (Nat × List Blk) := emitAsg (pr 18) 140 (callAsg G.rb (fst m3) [] [(G.bd + 348, .const (epd bd)), (G.bs + 348, .const (epd bs)), (G.bn + 348, .var n)])
def m1 : Option (Nat × List Blk) := emitAsg (pr 0) 150 (callAsg G.rp (fst m2) [] [(G.d + 348, .const (epd a)), (G.v + 348, .var x)])

def F : PFns where
  fp := pr 10
  fb := pr 28
  fu := pr 17
  rd := rd
  n1 := fst r0
  n2 := pr 2
  n3 := pr 3
  n4 := pr 5
  t0 := t0
  cn := cn
  fe := fe
  ub := pr 11
  u1 := pr 15
  u2 := pr 16
  u3 := fst rU
  bn1 := pr 23
  cont := pr 27
  b1 := fst c2
  b2 := fst c3
  b3 := pr 24

def ops : List PtOp := [.patch (fst m2) (.const (epd a)) (.var x), .block (fst m3) (.const (epd bd)) (.const (epd bs)) (.var n), .patch (fst m4) (.const (epd a)) (.var y), .unpatch haltAt]

def tr (k : Nat) (as : List PA) (nx : Nat) : SBlk := ⟨pr k, ⟨[], as.map PA.a⟩, some nx, false⟩
def qa (k : Nat) (as : List QA) (nx : Nat) : SBlk := ⟨pr k, ⟨[], as.map QA.act⟩, some nx, false⟩
def inc (k nx : Nat) : SBlk := tr k [aMem (G.ps + 348) .add 1] nx
def dec (k nx : Nat) : SBlk := tr k [aMem (G.ps + 348) .add (-1)] nx

def ownP : List SBlk := [tr 0 (preadActs G.rend G.cpc G.d (fst r0) (G.prev + 348) rd) G.d, tr 1 (vproc4Acts G.d G.v G.pos G.prev (pr 2)) G.d, qa 2 (pushQ G.ps G.d (pr 3) (epd G.pb)) G.ps, inc 3 (pr 4),
  qa 4 (pushQ G.ps G.pos (pr 5) (epd G.pb)) G.ps, inc 5 (pr 6), qa 6 (fillVC G.ps (epd G.pb) G.p1 (pr 7)) G.ps, tr 7 [⟨⟨none, .set, some 1, some 0xFFFFFFFF⟩, some G.p1⟩] (pr 8), inc 8 (pr 9),
  tr 9 [aMem (G.dws + 348) .add 1] (pr 10)] ++ fendBlks [] (pr 10)

def ownU : List SBlk := emitBr 97 [cMem (G.ps + 348) .atLeast 1] (pr 13) (pr 17) ++ [tr 13 [aMem (G.dws + 348) .add (-1)] (pr 14), dec 14 (fst p1), dec 15 (fst p2), dec 16 (fst p3)] ++ fendBlks [] (pr 17)

def ownB : List SBlk := [qa 18 (isetVC G.ps (epd G.pb) G.bd (pr 19) .set) G.ps, inc 19 (pr 20), qa 20 (isetVC G.ps (epd G.pb) G.bs (pr 21) .set) G.ps, inc 21 (pr 22), qa 22 (pushQ G.ps G.bn (pr 23) (epd G.pb)) G.ps, inc 23 (fst rI)] ++
  emitBr 110 [cMem (G.bn + 348) .exactly 0] (pr 28) (pr 26) ++
  [⟨pr 26, ⟨[cMem (G.bn + 348) .atMost 255].map PC.c, (endActs G.bn G.cd G.eb (pr 27)).map PA.a⟩, none, false⟩, tr 27 [aMem (G.bn + 348) .sub 256] (fst c1)] ++ fendBlks [] (pr 28)

def b0 : SBlk := ⟨t0, ⟨[], [aMem (ls + 4) .set (BitVec.ofNat 32 rd), aMem (rend + 4) .set (BitVec.ofNat 32 cn), aMem (G.cpc + 344) .set (epd cpAddr), aMem (G.cpc + 4) .set (BitVec.ofNat 32 fe)].map PA.a⟩, some ls, false⟩
def b1 : SBlk := ⟨ls, ⟨[cMem (ls + 8) .exactly 0].map PC.c, [aMem (ls + 4) .set (BitVec.ofNat 32 G.cpc)].map PA.a⟩, none, false⟩
def b2 : SBlk := ⟨cn, ⟨[], [aMem (rend + 344) .add 1, aMem cpAddr .add 1, aMem (ls + 8) .sub 1].map PA.a⟩, some ls, false⟩

def own : List SBlk := [b0, b1, b2] ++ fendBlks [] fe ++ ownP ++ ownU ++ ownB
def seqs : List (List Blk) := [snd r0, snd rU, snd q3, snd p3, snd q2, snd p2, snd q1', snd p1, snd c3, snd c2, snd c1, snd rI, snd m4, snd m3, snd m2, snd m1]

def L0 : Layout := ⟨⟨(rendBlk rend :: tabBlks A rend 0 T.trigs) ++ own, seqs.flatten, (List.range 14).map exVar⟩, [(pr 11, pr 17), (pr 24, pr 26)], []⟩
def X : List (Nat × Nat) := pvs.flatMap pvPins
def L : Layout := L0.pin X

def vs (xv yv nv : W) : List W := [0, 0, 1, 2, 3, 4, 5, 6, 7, 8, 9, xv, yv, nv]
/-- The cached player is 5. -/
def holes : List (Nat × W) := (cpAddr, 5) :: (G.cpc + 348, 5) :: pvs.map (fun p => (p + 352, pmod .set))
def mem (av dv sv xv yv nv : W) : Mem := L0.mem exBuf (vs xv yv nv) (pinHoles X ++ holes ++ [(a, av), (bd, dv), (bs, sv)])

theorem laid (xv yv nv : W) : L0.Laid exBuf (vs xv yv nv) := Layout.laidB_spec (show L0.laidB exBuf 14 = true by decide +kernel)
theorem pins : L0.pinB exBuf 14 X = true := by decide +kernel
theorem laid0 : L0.Laid exBuf (vs 0 0 0) := laid 0 0 0
theorem wf : L.Wf := laid0.pinWf pins
theorem ok (av dv sv xv yv nv : W) : L.Ok (mem av dv sv xv yv nv) := by
  unfold mem
  rw [List.append_assoc]
  exact (laid xv yv nv).pinOk pins _
theorem cell {x : Nat} (h : L0.pinCellB X x = true) : L.cell x := laid0.pinCellB h
theorem vm {n : Nat} (h : n < 14) : exVar n ∈ L.P.vars := laid0.exVars h
theorem far {x : Nat} (h1 : a ≤ x) (h2 : x < 0x7F00000) : L.cell x := laid0.far (lo := 0x7000000) (hi := 0x7F00000) (show L0.farB X 0x7000000 0x7F00000 = true by decide +kernel) h1 h2

theorem pv {b : Nat} (h : b ∈ pvs) : PVar L b := by
  have h1 : ∀ b ∈ pvs, (∀ r ∈ pvPins b, r ∈ X) ∧ (∀ o ∈ [4, 344, 348, 352], L0.Free exBuf 14 (b + o) ∧ ∀ r ∈ X, b + o ≠ r.1 + 4) := by decide +kernel
  exact PVar.pin laid0 (h1 b h).1 (h1 b h).2

theorem pv1 : PVar L G.cpc := pv (by decide)
theorem pv2 : PVar L G.d := pv (by decide)
theorem pv3 : PVar L G.v := pv (by decide)
theorem pv4 : PVar L G.pos := pv (by decide)
theorem pv5 : PVar L G.prev := pv (by decide)
theorem pv6 : PVar L G.bn := pv (by decide)

theorem bo {b : SBlk} (h : b ∈ own) : b ∈ L.P.blks := List.mem_append_right _ h
theorem bq {b : SBlk} (k : Nat) (h : own[k]? = some b) : b ∈ L.P.blks := bo (List.mem_of_getElem? h)
theorem b3 {b : SBlk} (h : b ∈ rendBlk rend :: tabBlks A rend 0 T.trigs) : b ∈ L.P.blks := List.mem_append_left _ h
theorem sq {l : List Blk} (h : l ∈ seqs) : ∀ b ∈ l, b ∈ L.P.seqs := fun _ hb => List.mem_flatten.2 ⟨l, h, hb⟩

theorem tab : RdTab L T A rend := by
  have hc : ∀ x ∈ [rend + 4, rend + 344, rend + 348, cpAddr], L0.pinCellB X x = true := by decide +kernel
  refine ⟨fun t r h => ?_, b3 (.head _), cell (hc _ (by simp)), cell (hc _ (by simp)), cell (hc _ (by simp)), cell (hc _ (by simp)), by decide⟩
  have := tabBlks_mem (A := A) (rend := rend) (k := 0) h
  rw [Nat.zero_add] at this
  exact b3 (.tail _ this)

theorem rdr : Reader L rend rd 0xFFFFFFFF 0 := Reader.of (q := q1) wf ExRead.base [] (by decide) (show T.req q1 = some (T, rt) by decide +kernel) tab

theorem rk : RepOk L G.rend G.cpc t0 G.ls cn rd fe where
  tab := ⟨T, A, tab⟩
  rdr := rdr
  pv := pv1
  b0 := bq 0 rfl
  b1 := bq 1 rfl
  b2 := bq 2 rfl
  c4 := cell (by decide +kernel)
  c8 := cell (by decide +kernel)
  nd := by decide +kernel
  lt := by decide +kernel

theorem fend : FuncEnd L fe G.np [] := fendBlks_end (frets := []) (fun x h => bo (by
  simp only [own, List.mem_append]; exact .inl (.inl (.inl (.inr h))))) (cell (by decide +kernel)) (by simp) (by simp)
theorem fendP : FuncEnd L (pr 10) G.rp [] := fendBlks_end (frets := []) (fun x h => bo (by
  simp only [own, ownP, List.mem_append]; exact .inl (.inl (.inr (.inr h))))) (cell (by decide +kernel)) (by simp) (by simp)
theorem fendU : FuncEnd L (pr 17) G.ru [] := fendBlks_end (frets := []) (fun x h => bo (by
  simp only [own, ownU, List.mem_append]; exact .inl (.inr (.inr h)))) (cell (by decide +kernel)) (by simp) (by simp)
theorem fendB : FuncEnd L (pr 28) G.rb [] := fendBlks_end (frets := []) (fun x h => bo (by
  simp only [own, ownB, List.mem_append]; exact .inr (.inr h))) (cell (by decide +kernel)) (by simp) (by simp)

theorem vars : ∀ v ∈ (List.range 14).map exVar, v ∈ L.P.vars := fun _ h => h
theorem callOk {nptr : Nat} {args : List (Nat × Src)} {scr : List Nat} (h : callOkB (L0.pinCellB X) ((List.range 14).map exVar) nptr [] args scr = true) : CallOk L nptr [] args scr := callOkB_spec (fun _ => cell) vars h

/-! ## Static facts -/

theorem npriv {x : Nat} (h1 : x ∉ G.scr) (h2 : x < 0x7010000 ∨ 0x7050000 ≤ x) : ¬ G.Priv x := by
  rintro (h | ⟨q, hq, h⟩ | ⟨q, hq, h⟩ | ⟨q, hq, h⟩)
  · exact h1 h
  · simp only [G] at hq h; omega
  · simp only [G] at hq h; omega
  · simp only [G] at hq h; omega

theorem scrFar : ∀ x ∈ G.scr, x < 0x7000000 ∨ 0x7F00000 ≤ x := by decide +kernel
theorem nscr {x : Nat} (h1 : 0x7000000 ≤ x) (h2 : x < 0x7F00000) : x ∉ G.scr := fun h => by have := scrFar x h; omega

theorem plain {b i : Nat} (h1 : 0x7000000 ≤ b) (h4 : b % 4 = 0) (h2 : b + 4 * i < 0x7F00000) : PlainEpd (epd b + BitVec.ofNat 32 i) := by
  refine .inr ?_
  have : (epd b).toNat = (b - 0x58A364) / 4 := by
    rw [epd_toNat b h4 (by omega), if_pos (by omega)]
  rw [BitVec.toNat_add, this, BitVec.toNat_ofNat]
  omega

theorem pok : POk L G where
  nd := by decide +kernel
  cells := by
    have : ∀ x ∈ G.scr, L0.pinCellB X x = true := by decide +kernel
    exact fun x hx => cell (this x hx)
  vars := fun v hv => vars v (by revert v; decide +kernel)
  al := by decide
  lt := by decide
  pl := fun q hq => by
    simp only [G] at hq
    exact ⟨plain (by decide) (by decide) (by simp only [G]; omega), far (by simp only [G, a]; omega) (by simp only [G]; omega), nscr (by simp only [G]; omega) (by simp only [G]; omega)⟩
  dl := fun q hq => by
    simp only [G] at hq
    refine ⟨plain (by decide) (by decide) (by simp only [G]; omega), far (by simp only [G, a]; omega) (by simp only [G]; omega), nscr (by simp only [G]; omega) (by simp only [G]; omega), ?_⟩
    rintro ⟨r, h1, h2⟩
    simp only [G] at h1 h2
    omega
  tl := ⟨by decide, by decide, fun q hq => by
    have e : epdAddr (epd G.tb + BitVec.ofNat 32 q) = G.tb + 4 * q := epdAddr_add (by decide) (by simp only [G]; omega)
    refine ⟨plain (by decide) (by decide) (by simp only [G]; omega), ?_, ?_, ?_⟩ <;> rw [e]
    · exact far (by simp only [G, a]; omega) (by simp only [G]; omega)
    · exact nscr (by simp only [G]; omega) (by simp only [G]; omega)
    · rintro ⟨r, h1, h2⟩
      simp only [G] at h1 h2
      omega⟩

theorem uok : UOk L G F.t0 F.cn F.rd F.fe F.ub := ⟨rk, fend, callOk (by decide +kernel), by decide⟩
theorem bok : BOk L G F.t0 F.cn F.rd F.fe F.b1 F.b2 F.b3 := ⟨rk, fend, callOk (by decide +kernel), callOk (by decide +kernel), callOk (by decide +kernel), by decide +kernel⟩
theorem htd : ∀ q < G.cap, ∀ r < 256, G.db + 4 * q ≠ G.tb + 4 * r := fun q hq r hr => by simp only [G] at hq ⊢; omega

/-! ## Code -/

theorem asgCode {x m : Nat} {l : List Asg} {r : Option (Nat × List Blk)} (hr : emitAsg x m l = r) (hs : r.isSome = true) (k : Nat) (hm : seqs[k]? = some (snd r)) (u b j : Nat) : Code L u b j (.asg l) (fst r) x := by
  have h : r = some ((r.getD (0, [])).1, (r.getD (0, [])).2) := some_getD hs (0, [])
  exact emitAsg_code (hr.trans h) (sq (List.mem_of_getElem? hm)) u b j

theorem cTr {k : Nat} {as : List PA} {nx : Nat} (i : Nat) (h : own[i]? = some (tr k as nx)) (hp : PlacedA (pr k + 328) as) {u b j : Nat} : Code L u b j (.trig [] as) (pr k) nx := .trig trivial hp (bq i h)
theorem cInc {k nx : Nat} (i : Nat) (h : own[i]? = some (inc k nx)) {u b j : Nat} : Code L u b j (.trig [] [aMem (G.ps + 348) .add 1]) (pr k) nx := cTr i h ⟨aMem_static _ _ _, trivial⟩

theorem cPatch : Code L (pr 10) 0 0 (dwpatchBody L G F.rd F.n1 F.n2 F.n3 F.n4) (pr 0) (pr 10) :=
  .seq (pread_code wf tab rdr pv1 pv2 (bq 4 rfl) (by decide +kernel) (cell (by decide +kernel)) (by decide +kernel) (by decide +kernel) _ _ _)
    (.seq (asgCode (r := r0) rfl (by decide +kernel) 0 rfl _ _ _)
      (.seq (vproc4_code wf pv2 pv3 pv4 pv5 (bq 5 rfl) (by decide) (by decide) (by decide) (by decide +kernel) _ _ _)
        (.seq (push_code wf (vm (n := 0) (by decide)) pv2 (bq 6 rfl) (by decide) (by decide) (by decide +kernel) _ _ _)
          (.seq (cInc (k := 3) 7 rfl)
            (.seq (push_code wf (vm (n := 0) (by decide)) pv4 (bq 8 rfl) (by decide) (by decide) (by decide +kernel) _ _ _)
              (.seq (cInc (k := 5) 9 rfl)
                (.seq (.seq (fillVC_code wf (.inr ⟨rfl, rfl⟩) (vm (n := 0) (by decide)) (by decide) (cell (by decide +kernel)) (by decide) (by decide) (bq 10 rfl)) (cTr (k := 7) 11 rfl ⟨rfl, trivial⟩))
                  (.seq (cInc (k := 8) 12 rfl) (.seq (cTr (k := 9) 13 rfl ⟨aMem_static _ _ _, trivial⟩) .skip)))))))))

theorem rdok {o t : Nat} (h : (o, t) ∈ [(G.o1, G.t1), (G.o2, G.t2), (G.o3, G.t3)]) : RdOk L G.rend G.cpc (o + 348) (.var t) := by
  have h1 : ∀ p ∈ [(G.o1, G.t1), (G.o2, G.t2), (G.o3, G.t3)], L0.pinCellB X (p.1 + 348) = true ∧ EpdOK (p.1 + 348) ∧ (p.1 + 348 ∉ rdScr G.rend G.cpc ∧ p.1 + 348 ≠ G.cpc + 348) ∧ p.1 + 348 ≠ G.cpc + 352 ∧
      p.2 ∈ (List.range 14).map exVar ∧ p.2 + 348 ∉ rdScr G.rend G.cpc := by decide +kernel
  obtain ⟨g1, g2, g3, g4, g5, g6⟩ := h1 _ h
  refine ⟨pv1, by decide +kernel, cell g1, g2, g3, ⟨g4, by decide +kernel⟩, by decide, ?_⟩
  intro v hv
  cases hv
  exact ⟨vars _ g5, g6⟩

theorem cDec {k nx : Nat} (i : Nat) (h : own[i]? = some (dec k nx)) {u b j : Nat} : Code L u b j (.trig [] [aMem (G.ps + 348) .add (-1)]) (pr k) nx := cTr i h ⟨aMem_static _ _ _, trivial⟩

theorem cRep (u b j : Nat) : Code L u b j (.prim (RepRel L G.rend G.cpc G.ls cn fe)) t0 fe := rep_code wf rk u b j
theorem fRep : FuncCode L t0 fe G.np [] (.prim (RepRel L G.rend G.cpc G.ls cn fe)) := ⟨⟨0, 0, cRep fe 0 0⟩, fend⟩

theorem cCall {e back fstart fe nptr : Nat} {body : Stmt} (hF : FuncCode L fstart fe nptr [] body) {args : List (Nat × Src)} (hc : Code L 0 0 0 (.asg (callAsg nptr back [] args)) e fstart) (hb : back < 2 ^ 32) (u b k : Nat) :
    Code L u b k (.prim (CallRel L fe nptr back body [] args)) e back := C31_call wf (rs := []) hF ⟨⟨0, 0, 0, hc⟩, hb⟩ (by simp) u b k

theorem brU : BranchAt L (pr 13) (pr 17) (pr 11) [cMem (G.ps + 348) .atLeast 1] [] :=
  emitBr_at (n := 97) (by decide +kernel) (fun b h => bo (by simp only [own, ownU, List.mem_append]; exact .inl (.inr (.inl (.inl h))))) (by exact .head _)

theorem cUnpatch : Code L (pr 17) 0 0 (unpatchBody L G F.cn F.fe F.ub F.u1 F.u2 F.u3) (pr 11) (pr 17) := by
  refine .loop (c := pr 11) (ta := pr 13) (i := pr 11) .skip brU ?_ .skip
  refine .seq (cTr (k := 13) 17 rfl ⟨aMem_static _ _ _, trivial⟩) (.seq (m := pr 15) ?_ (.seq (m := pr 16) ?_ (.seq (m := fst rU) ?_ (.seq (m := pr 11) ?_ .skip))))
  · exact .seq (cDec (k := 14) 18 rfl) (.seq (asgCode (r := p1) rfl (by decide +kernel) 7 rfl _ _ _) (C32_epd_code wf tab rdr (rdok (by decide)) (by decide) (asgCode (r := q1') rfl (by decide +kernel) 6 rfl _ _ _)))
  · exact .seq (cDec (k := 15) 19 rfl) (.seq (asgCode (r := p2) rfl (by decide +kernel) 5 rfl _ _ _) (C32_epd_code wf tab rdr (rdok (by decide)) (by decide) (asgCode (r := q2) rfl (by decide +kernel) 4 rfl _ _ _)))
  · exact .seq (cDec (k := 16) 20 rfl) (.seq (asgCode (r := p3) rfl (by decide +kernel) 3 rfl _ _ _) (C32_epd_code wf tab rdr (rdok (by decide)) (by decide +kernel) (asgCode (r := q3) rfl (by decide +kernel) 2 rfl _ _ _)))
  · exact cCall fRep (asgCode (r := rU) rfl (by decide +kernel) 1 rfl _ _ _) (by decide) _ _ _

theorem brB : BranchAt L (pr 28) (pr 26) (pr 24) [cMem (G.bn + 348) .exactly 0] [] :=
  emitBr_at (n := 110) (by decide +kernel) (fun b h => bo (by simp only [own, ownB, List.mem_append]; exact .inr (.inl (.inl (.inr h))))) (by exact .tail _ (.head _))

theorem cBlock : Code L (pr 28) 0 0 (blkBody L G F.bn1 F.cont F.cn F.fe F.b1 F.b2 F.b3) (pr 18) (pr 28) := by
  refine .seq (isetVC_code wf (.inr ⟨rfl, rfl⟩) (vm (n := 0) (by decide)) (vm (n := 8) (by decide)) (by decide) (by decide) (by decide) (by decide) (bq 22 rfl)) (.seq (cInc (k := 19) 23 rfl)
    (.seq (isetVC_code wf (.inr ⟨rfl, rfl⟩) (vm (n := 0) (by decide)) (vm (n := 9) (by decide)) (by decide) (by decide) (by decide) (by decide) (bq 24 rfl)) (.seq (cInc (k := 21) 25 rfl)
      (.seq (push_code wf (vm (n := 0) (by decide)) pv6 (bq 26 rfl) (by decide) (by decide) (by decide +kernel) _ _ _) (.seq (cInc (k := 23) 27 rfl)
        (.seq (asgCode (r := rI) rfl (by decide +kernel) 11 rfl _ _ _) (.seq ?_ .skip)))))))
  refine .loop (c := pr 24) (ta := pr 26) (i := pr 24) .skip brB ?_ .skip
  refine .seq (end_code wf pv6 (cell (by decide +kernel)) (cell (by decide +kernel)) (by decide) (bq 30 rfl) (by decide) (by decide +kernel) _ _ _) (.seq (cTr (k := 27) 31 rfl ⟨aMem_static _ _ _, trivial⟩) (.seq (m := fst c2) ?_ (.seq (m := fst c3) ?_ (.seq (m := pr 24) ?_ .skip))))
  · exact cCall fRep (asgCode (r := c1) rfl (by decide +kernel) 10 rfl _ _ _) (by decide +kernel) _ _ _
  · exact cCall fRep (asgCode (r := c2) rfl (by decide +kernel) 9 rfl _ _ _) (by decide +kernel) _ _ _
  · exact cCall fRep (asgCode (r := c3) rfl (by decide +kernel) 8 rfl _ _ _) (by decide) _ _ _

theorem code1 : Code L retAt 0 0 (.seqs ((ops.take 3).map (PtOp.stmt L G F))) (fst m1) (fst m4) :=
  .seq (cCall ⟨⟨0, 0, cPatch⟩, fendP⟩ (asgCode (r := m1) rfl (by decide +kernel) 15 rfl _ _ _) (by decide +kernel) _ _ _)
    (.seq (cCall ⟨⟨0, 0, cBlock⟩, fendB⟩ (asgCode (r := m2) rfl (by decide +kernel) 14 rfl _ _ _) (by decide +kernel) _ _ _)
      (.seq (cCall ⟨⟨0, 0, cPatch⟩, fendP⟩ (asgCode (r := m3) rfl (by decide +kernel) 13 rfl _ _ _) (by decide +kernel) _ _ _) .skip))
theorem code2 : Code L retAt 0 0 (.seqs ((ops.drop 3).map (PtOp.stmt L G F))) (fst m4) haltAt :=
  .seq (cCall ⟨⟨0, 0, cUnpatch⟩, fendU⟩ (asgCode (r := m4) rfl (by decide +kernel) 12 rfl _ _ _) (by decide) _ _ _) .skip

/-! ## The run -/

theorem swapped_d {d p : W} {k i : Nat} (hk : k ≤ 256) (hi : i < k) (m : Mem) : swapped d p k m (epdAddr (d + BitVec.ofNat 32 i)) = m (epdAddr (p + BitVec.ofNat 32 i)) := by
  rw [swapped, blkAt_eq hk hi]

theorem blkAt_far {d : W} {k x : Nat} (h : ∀ i < k, epdAddr (d + BitVec.ofNat 32 i) ≠ x) : blkAt d k x = none := by
  cases e : blkAt d k x with
  | none => rfl
  | some i => exact absurd (blkAt_some e).2 (h i (blkAt_some e).1)

theorem swapped_p {d p : W} {k i : Nat} (hk : k ≤ 256) (hi : i < k) (hdp : ∀ j < k, epdAddr (d + BitVec.ofNat 32 j) ≠ epdAddr (p + BitVec.ofNat 32 i)) (m : Mem) : swapped d p k m (epdAddr (p + BitVec.ofNat 32 i)) = m (epdAddr (d + BitVec.ofNat 32 i)) := by
  rw [swapped, blkAt_far hdp, blkAt_eq hk hi]

theorem swapped_o {d p : W} {k x : Nat} (h1 : ∀ i < k, epdAddr (d + BitVec.ofNat 32 i) ≠ x) (h2 : ∀ i < k, epdAddr (p + BitVec.ofNat 32 i) ≠ x) (m : Mem) : swapped d p k m x = m x := by
  rw [swapped, blkAt_far h1, blkAt_far h2]

theorem ea : epdAddr (epd a) = a := epdAddr_epd (by decide) (by decide)
theorem ed {i : Nat} (h : i < 256) : epdAddr (epd bd + BitVec.ofNat 32 i) = bd + 4 * i := epdAddr_add (by decide) (by simp only [bd]; omega)
theorem es {i : Nat} (h : i < 256) : epdAddr (epd bs + BitVec.ofNat 32 i) = bs + 4 * i := epdAddr_add (by decide) (by simp only [bs]; omega)

theorem np {x : Nat} (h1 : 0x7000000 ≤ x) (h2 : x < 0x7003000) : ¬ G.Priv x := npriv (nscr h1 (by omega)) (.inl (by omega))

theorem tga : UTarget L G (epd a) := ⟨by rw [← add_zero_epd (epd a)]; exact plain (by decide) (by decide) (by decide), by rw [ea]; exact far (by decide) (by decide), by rw [ea]; exact np (by decide) (by decide)⟩
theorem tgd {i : Nat} (h : i < 256) : UTarget L G (epd bd + BitVec.ofNat 32 i) :=
  ⟨plain (by decide) (by decide) (by simp only [bd]; omega), by rw [ed h]; exact far (by simp only [bd, a]; omega) (by simp only [bd]; omega), by rw [ed h]; exact np (by simp only [bd]; omega) (by simp only [bd]; omega)⟩
theorem tgs {i : Nat} (h : i < 256) : UTarget L G (epd bs + BitVec.ofNat 32 i) :=
  ⟨plain (by decide) (by decide) (by simp only [bs]; omega), by rw [es h]; exact far (by simp only [bs, a]; omega) (by simp only [bs]; omega), by rw [es h]; exact np (by simp only [bs]; omega) (by simp only [bs]; omega)⟩

theorem su {k : Nat} (h : 11 ≤ k) (h' : k < 14) : SrcU G (.var (exVar k)) := by
  rintro v hv
  cases hv
  have : ∀ k < 14, 11 ≤ k → exVar k + 348 ∉ G.scr ∧ exVar k + 348 < 0x7010000 := by decide +kernel
  exact npriv (this k h' h).1 (.inl (this k h' h).2)
theorem sc {c : W} : SrcU G (.const c) := by rintro v hv; cases hv
theorem vfar {k : Nat} (h' : k < 14) : exVar k + 348 < 0x7000000 := by
  have : ∀ k < 14, exVar k + 348 < 0x7000000 := by decide +kernel
  exact this k h'

/-- `a` holds what was patched last and the blocks are exchanged; then, after `f_unpatchall`, `a` and the first block hold what they did. -/
theorem run (av dv sv xv yv nv : W) (hn : nv.toNat ≤ 256) : ∃ m1' m2', Reaches ⟨mem av dv sv xv yv nv, fst m1⟩ ⟨m1', fst m4⟩ ∧ Reaches ⟨m1', fst m4⟩ ⟨m2', haltAt⟩ ∧
    m1' a = yv ∧ (∀ i < nv.toNat, m1' (bd + 4 * i) = mem av dv sv xv yv nv (bs + 4 * i)) ∧ (0 < nv.toNat → m1' bd = sv ∧ m1' bs = dv) ∧
    m2' a = av ∧ (∀ i < 256, m2' (bd + 4 * i) = mem av dv sv xv yv nv (bd + 4 * i)) ∧ m2' bd = dv ∧ m2' cpAddr = 5 := by
  have hl := laid xv yv nv
  have hvv : ∀ a, L.cell a → ∀ m, L.view m a = m a := fun a ha m => Layout.view_at ha.2
  have fi : ∀ z, z ∉ [a, bd, bs] → (pinHoles X ++ holes ++ [(a, av), (bd, dv), (bs, sv)]).find? (fun r => r.1 == z) = (pinHoles X ++ holes).find? (fun r => r.1 == z) := by
    intro z hz
    simp only [List.mem_cons, List.not_mem_nil, or_false, not_or] at hz
    rw [List.find?_append, show List.find? (fun r => r.1 == z) [(a, av), (bd, dv), (bs, sv)] = none by
      rw [List.find?_eq_none]
      intro r hr
      simp only [List.mem_cons, List.not_mem_nil, or_false] at hr
      rcases hr with rfl | rfl | rfl <;> simp only [beq_iff_eq] <;> first | exact fun e => hz.1 e.symm | exact fun e => hz.2.1 e.symm | exact fun e => hz.2.2 e.symm, Option.or_none]
  have fr : ∀ z, L0.pinCellB X z = true ∧ L0.Free exBuf 14 z ∧ z ∉ [a, bd, bs] → L.view (mem av dv sv xv yv nv) z = match (pinHoles X ++ holes).find? (fun r => r.1 == z) with | some r => r.2 | none => 0 := by
    intro z hz
    rw [hvv _ (cell hz.1), ← fi z hz.2.2]
    exact hl.free hz.2.1 (by decide) _
  have vv : ∀ k : Nat, (h : k < 14) → L.view (mem av dv sv xv yv nv) (exVar k + 348) = (vs xv yv nv)[k]'h := by
    intro k h
    have : ∀ k < 14, L0.pinCellB X (exVar k + 348) = true := by decide +kernel
    rw [hvv _ (cell (this k h))]
    exact (hl.ok _).2 k h
  have fn : ∀ z ∈ [a, bd, bs], (pinHoles X ++ holes).find? (fun r => r.1 == z) = none := by decide +kernel
  have ff : ∀ z ∈ [a, bd, bs], L0.Free exBuf 14 z := by decide +kernel
  have va : L.view (mem av dv sv xv yv nv) a = av := by
    rw [hvv _ (far (by decide) (by decide)), mem, hl.free (ff _ (by simp)) (by decide), List.find?_append, fn _ (by simp)]
    rfl
  have vd : L.view (mem av dv sv xv yv nv) bd = dv := by
    rw [hvv _ (far (by decide) (by decide)), mem, hl.free (ff _ (by simp)) (by decide), List.find?_append, fn _ (by simp)]
    rfl
  have vb : L.view (mem av dv sv xv yv nv) bs = sv := by
    rw [hvv _ (far (by decide) (by decide)), mem, hl.free (ff _ (by simp)) (by decide), List.find?_append, fn _ (by simp)]
    rfl
  have is : PIs G [] (L.view (mem av dv sv xv yv nv)) 5 (L.view (mem av dv sv xv yv nv)) := by
    have hc : ∀ z ∈ (cpAddr :: (G.cpc + 348) :: pvs.map (· + 352)), L0.pinCellB X z = true ∧ L0.Free exBuf 14 z ∧ z ∉ [a, bd, bs] := by decide +kernel
    have hp : ∀ z ∈ pvs, (match (pinHoles X ++ holes).find? (fun r => r.1 == z + 352) with | some r => r.2 | none => 0) = pmod .set := by decide +kernel
    have md : ∀ z ∈ pvs, L.view (mem av dv sv xv yv nv) (z + 352) = pmod .set := fun z hz => (fr _ (hc _ (List.mem_cons_of_mem _ (List.mem_cons_of_mem _ (List.mem_map_of_mem hz))))).trans (hp z hz)
    refine ⟨vv 0 (by decide), vv 1 (by decide), Nat.zero_le _, ?_, (fr _ (hc _ (by simp))).trans (by decide +kernel), (fr _ (hc _ (by simp))).trans (by decide +kernel), md _ (by decide), md _ (by decide), md _ (by decide), md _ (by decide),
      md _ (by decide), md _ (by decide), fun i d p n h => (by simp at h), fun _ _ _ => rfl⟩
    rw [show G.rend = rend from rfl, hvv _ (cell (by decide +kernel)), mem]
    have := (hl.hole (show rendBlk rend ∈ L0.P.blks from List.mem_append_left _ (.head _)) (o := 348) (by decide) (by decide +kernel) (by decide) (pinHoles X ++ holes ++ [(a, av), (bd, dv), (bs, sv)])).2
    rw [show (rendBlk rend).t = rend from rfl, fi _ (by decide +kernel)] at this
    exact this.trans (by decide +kernel)
  have e11 := vv 11 (by decide)
  have e12 := vv 12 (by decide)
  have e13 := vv 13 (by decide)
  have hvw : ∀ z, a ≤ z → z < 0x7F00000 → L.view (mem av dv sv xv yv nv) z = mem av dv sv xv yv nv z := fun z h1 h2 => hvv z (far h1 h2) _
  have hw0 : L.view (mem av dv sv xv yv nv) = L.view (mem av dv sv xv yv nv) := rfl
  generalize hs : L.view (mem av dv sv xv yv nv) = s at *
  simp only [vs, List.getElem_cons_zero, List.getElem_cons_succ] at e11 e12 e13
  have xa : ∀ k, k < 14 → exVar k + 348 ≠ a := fun k hk => by have := vfar hk; simp only [a]; omega
  have xd : ∀ k, k < 14 → ∀ i < nv.toNat, epdAddr (epd bd + BitVec.ofNat 32 i) ≠ exVar k + 348 := fun k hk i hi => by have := vfar hk; rw [ed (by omega)]; simp only [bd]; omega
  have xs : ∀ k, k < 14 → ∀ i < nv.toNat, epdAddr (epd bs + BitVec.ofNat 32 i) ≠ exVar k + 348 := fun k hk i hi => by have := vfar hk; rw [es (by omega)]; simp only [bs]; omega
  have ad : ∀ i < nv.toNat, epdAddr (epd bd + BitVec.ofNat 32 i) ≠ a := fun i hi => by rw [ed (by omega)]; simp only [bd, a]; omega
  have as : ∀ i < nv.toNat, epdAddr (epd bs + BitVec.ofNat 32 i) ≠ a := fun i hi => by rw [es (by omega)]; simp only [bs, a]; omega
  have ds : ∀ i < nv.toNat, ∀ j < nv.toNat, epdAddr (epd bd + BitVec.ofNat 32 i) ≠ epdAddr (epd bs + BitVec.ofNat 32 j) := fun i hi j hj => by rw [ed (by omega), es (by omega)]; simp only [bd, bs]; omega
  -- the states of the specification
  have s1 : PtOp.spec (.patch (fst m2) (.const (epd a)) (.var x)) ⟨s, fun _ => none, [], 0⟩ = ⟨s.set a xv, fun z => if z = a then some (s z) else none, [], 1⟩ := by
    simp only [PtOp.spec, Src.valM, ea, and_true, x, e11]
  have s2 : PtOp.spec (.block (fst m3) (.const (epd bd)) (.const (epd bs)) (.var n)) ⟨s.set a xv, fun z => if z = a then some (s z) else none, [], 1⟩ =
      ⟨swapped (epd bd) (epd bs) nv.toNat (s.set a xv), fun z => if (blkAt (epd bd) nv.toNat z).isSome ∧ (if z = a then some (s z) else none) = none then some (s.set a xv z) else if z = a then some (s z) else none,
        (List.range nv.toNat).map fun i => epdAddr (epd bs + BitVec.ofNat 32 i), 2⟩ := by
    simp only [PtOp.spec, Src.valM, n, set_ne (xa 13 (by decide)), e13, List.nil_append]
  have hy : swapped (epd bd) (epd bs) nv.toNat (s.set a xv) (y + 348) = yv := by
    rw [y, swapped_o (xd 12 (by decide)) (xs 12 (by decide)), set_ne (xa 12 (by decide)), e12]
  obtain ⟨st1, x1, log1, i1⟩ := C47_patches wf pok uok bok htd (ops.take 3) (PInv.init (L := L) is) (by
    refine ⟨⟨by decide +kernel, callOk (by decide +kernel), sc, su (k := 11) (by decide) (by decide), (by decide : 0 < 8192), tga, by simp⟩, ?_, ?_, trivial⟩
    · rw [s1]
      refine ⟨by decide +kernel, callOk (by decide +kernel), sc, sc, su (k := 13) (by decide) (by decide), (by decide : 1 < 8192), ?_⟩
      simp only [Src.valM, n, set_ne (xa 13 (by decide)), e13]
      exact ⟨hn, fun i hi => ⟨tgd (by omega), by simp⟩, fun i hi => ⟨tgs (by omega), by simp, if_neg (as i hi)⟩, ds⟩
    · rw [s1, s2]
      refine ⟨by decide +kernel, callOk (by decide +kernel), sc, su (k := 12) (by decide) (by decide), (by decide : 2 < 8192), tga, ?_⟩
      simp only [Src.valM, ea, List.mem_map, List.mem_range, not_exists, not_and]
      exact as)
  have eσ : PtOp.run (ops.take 3) ⟨s, fun _ => none, [], 0⟩ = ⟨(swapped (epd bd) (epd bs) nv.toNat (s.set a xv)).set a yv,
      fun z => if (blkAt (epd bd) nv.toNat z).isSome ∧ z ≠ a then some (s z) else if z = a then some (s z) else none, (List.range nv.toNat).map fun i => epdAddr (epd bs + BitVec.ofNat 32 i), 3⟩ := by
    rw [show ops.take 3 = [.patch (fst m2) (.const (epd a)) (.var x), .block (fst m3) (.const (epd bd)) (.const (epd bs)) (.var n), .patch (fst m4) (.const (epd a)) (.var y)] from rfl, PtOp.run, List.foldl, List.foldl, List.foldl, List.foldl, s1, s2]
    simp only [PtOp.spec, Src.valM, ea, hy]
    congr 1
    funext z
    by_cases hz : z = a
    · subst hz
      simp
    · simp [hz, get_set]
  rw [eσ] at i1
  obtain ⟨st2, x2, log2, i2⟩ := C47_patches wf pok uok bok htd (ops.drop 3) i1 ⟨⟨by decide, callOk (by decide +kernel)⟩, trivial⟩
  have eσ2 : ∀ σ, PtOp.run (ops.drop 3) σ = PtOp.spec (.unpatch haltAt) σ := fun _ => rfl
  rw [eσ2] at i2
  obtain ⟨m1', rr1, ok1, hv1⟩ := C25_structured wf x1 code1 _ (ok av dv sv xv yv nv) hs
  obtain ⟨m2', rr2, ok2, hv2⟩ := C25_structured wf x2 code2 _ ok1 hv1
  have h1 : ∀ z, a ≤ z → z < 0x7003000 → m1' z = (swapped (epd bd) (epd bs) nv.toNat (s.set a xv)).set a yv z := fun z g1 g2 => by
    rw [← hvv z (far g1 (by omega)) m1', hv1, i1.m z (np g1 g2)]
  have h2 : ∀ z, a ≤ z → z < 0x7003000 → m2' z = (if (blkAt (epd bd) nv.toNat z).isSome ∧ z ≠ a then some (s z) else if z = a then some (s z) else none).getD ((swapped (epd bd) (epd bs) nv.toNat (s.set a xv)).set a yv z) := fun z g1 g2 => by
    rw [← hvv z (far g1 (by omega)) m2', hv2, i2.m z (np g1 g2)]
    rfl
  have hd1 : ∀ i < nv.toNat, m1' (bd + 4 * i) = s (bs + 4 * i) := fun i hi => by
    have e := ed (show i < 256 by omega)
    rw [h1 _ (by simp only [bd, a]; omega) (by simp only [bd]; omega), set_ne (by simp only [bd, a]; omega), ← e, swapped_d hn hi, es (by omega), set_ne (by simp only [bs, a]; omega)]
  have hd2 : ∀ i < 256, m2' (bd + 4 * i) = s (bd + 4 * i) := fun i hi => by
    have e := ed hi
    have na : bd + 4 * i ≠ a := by simp only [bd, a]; omega
    rw [h2 _ (by simp only [bd, a]; omega) (by simp only [bd]; omega)]
    by_cases hi2 : i < nv.toNat
    · have hb : (blkAt (epd bd) nv.toNat (bd + 4 * i)).isSome = true := by rw [← e, blkAt_eq hn hi2]; rfl
      rw [if_pos ⟨hb, na⟩]
      rfl
    · have hb : blkAt (epd bd) nv.toNat (bd + 4 * i) = none := blkAt_far fun j hj => by rw [ed (by omega)]; omega
      rw [if_neg (by simp [hb]), if_neg na]
      show ((swapped (epd bd) (epd bs) nv.toNat (s.set a xv)).set a yv) (bd + 4 * i) = _
      rw [set_ne na, swapped_o (fun j hj => by rw [ed (by omega)]; omega) (fun j hj => by rw [es (by omega)]; simp only [bd, bs]; omega), set_ne na]
  refine ⟨m1', m2', rr1, rr2, ?_, fun i hi => ?_, fun hp => ⟨?_, ?_⟩, ?_, fun i hi => ?_, ?_, ?_⟩
  · rw [h1 a (by decide) (by decide), set_eq]
  · rw [hd1 i hi, hvw _ (by simp only [bs, a]; omega) (by simp only [bs]; omega)]
  · rw [← vb]; exact hd1 0 hp
  · have e := es (show 0 < 256 by decide)
    rw [show bs + 4 * 0 = bs from rfl] at e
    rw [h1 _ (by decide) (by decide), set_ne (by decide)]
    have q := swapped_p hn hp (fun j hj => ds j hj 0 hp) (s.set a xv)
    rw [e, ed (by decide), set_ne (by decide)] at q
    exact q.trans vd
  · rw [h2 a (by decide) (by decide), if_neg (by simp), if_pos rfl]
    exact va
  · rw [hd2 i hi, hvw _ (by simp only [bd, a]; omega) (by simp only [bd]; omega)]
  · rw [← vd]; exact hd2 0 (by decide)
  · rw [← hvv _ (cell (by decide +kernel)) m2', hv2]
    exact i2.is.cp

end ExPatch

end Eud.SC
