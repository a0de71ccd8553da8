import Verif.Ex.Read
import Verif.Ex.VArr
import Verif.Lib.Pool
/-
Example for C41 and C54: a pool of two objects with two fields each in memory, `p = alloc(); q = alloc(); p.a = x; q.a = y; o = p.a; free(p)` for all `x` and `y`.
-/

namespace Eud.SC

namespace ExPool

open ExRead (q1 t1 T base tabBlks tabBlks_mem some_getD)
open ExVArr (bitBlk)

/-- The first object. -/
def arr : Nat := 0xE020000
def cpc : Nat := 0xE000000
def x : Nat := exVar 0
def y : Nat := exVar 1
def p : Nat := exVar 2
def q : Nat := exVar 3
def ep : Nat := exVar 4
def eq : Nat := exVar 5
def o : Nat := exVar 6
def rem : Nat := exVar 7
def k1 : Nat := exVar 8
def v : Nat := exVar 9
def td : Nat := exVar 10
def ti : Nat := exVar 11

def V : VSh where
  g := trigAt 0
  gi := trigAt 1
  si := trigAt 2
  lv := 0xE030000
  ig := fun n => trigAt (3 + n)
  is := fun n => trigAt (31 + n)

def rend : Nat := trigAt 61
def A (t : Nat) : Nat := trigAt (62 + t)
def fret : Nat := trigAt 170
def fend : Nat := trigAt 171
def nptr : Nat := fendPtr [fret] fend
/-- The trigger of `EPD`. -/
def f : Nat := trigAt 172
/-- The write in `free`, and the accesses of fields. -/
def PF : Nat := trigAt 173
def PG : Nat := trigAt 174
def PS2 : Nat := trigAt 175
def PS1 : Nat := trigAt 176

def rnx : Nat := seqAt 1

def pl (fstart : Nat) : Pool where
  base := arr
  stride := 144
  size := 2
  data := 0xE040000
  rem := rem
  k1 := k1
  v := v
  fret := fret
  fstart := fstart
  fend := fend
  nptr := nptr
  rend := rend
  cpc := cpc
  rnx := rnx

/-- A read. -/
def rdS (_b _k x n m : Nat) : Option Emitted :=
  if x = rnx then match emitAsg (A t1) m (epdOps rend cpc rnx (v + 348) (.var k1) none) with
    | some (e, Q) => some ⟨e, n, m + Q.length, [], Q, []⟩
    | none => none
  else none

def es : ES :=
  .seq (.base (.ite .skip [cMem (rem + 348) .exactly 0] (.seq (.asg [⟨fret + 348, .set, .const 0⟩]) .ret) .skip))
    (.seq (.base (.asg [⟨rem + 348, .add, .const (-1)⟩])) (.seq (.base (.asg (sumAsg k1 (.const (epd 0xE040000)) (.var rem))))
      (.seq (.site 0) (.seq (.base (.asg [⟨v + 348, .add, .const (BitVec.ofNat 32 arr)⟩])) (.base (.seq (.asg [⟨fret + 348, .set, .var v⟩]) .ret))))))

/-- `_alloc` -/
def F : Emitted := emitD fend (fun _ => rdS) es 0 0 fend 190 0

def P : Pool := pl F.e

def rF2 : Option (Nat × List Blk) := emitAsg haltAt 20 [⟨rem + 348, .add, .const 1⟩]
def nF2 : Nat := (rF2.getD (0, [])).1
def rF1 : Option (Nat × List Blk) := emitAsg PF 25 (P.diffAsg td p)
def nF1 : Nat := (rF1.getD (0, [])).1
def rE2 : Option (Nat × List Blk) := emitAsg f 30 [⟨f + 4, .set, .const (BitVec.ofNat 32 PS1)⟩, ⟨f + 1368, .set, .const (epd (eq + 348))⟩, ⟨f + 1372, .set, .var q⟩]
def nE2 : Nat := (rE2.getD (0, [])).1
def rE1 : Option (Nat × List Blk) := emitAsg f 35 [⟨f + 4, .set, .const (BitVec.ofNat 32 nE2)⟩, ⟨f + 1368, .set, .const (epd (ep + 348))⟩, ⟨f + 1372, .set, .var p⟩]
def nE1 : Nat := (rE1.getD (0, [])).1
def rC2 : Option (Nat × List Blk) := emitAsg F.e 40 (callAsg nptr nE1 [(fret, q + 348)] [])
def nC2 : Nat := (rC2.getD (0, [])).1
def rC1 : Option (Nat × List Blk) := emitAsg F.e 45 (callAsg nptr nC2 [(fret, p + 348)] [])
def entry : Nat := (rC1.getD (0, [])).1

def bF : SBlk := ⟨PF, ⟨[], (isetVC rem (epd 0xE040000) td nF2 .set).map QA.act⟩, some rem, false⟩
def bG : SBlk := ⟨PG, ⟨[], (V.getQ 1 nF1 (o + 348) (.var p) (.const 0)).map QA.act⟩, some p, false⟩
def bS2 : SBlk := ⟨PS2, ⟨[], (V.setQ 1 PG (.var eq) (.var y) (.const 0)).map QA.act⟩, some eq, false⟩
def bS1 : SBlk := ⟨PS1, ⟨[], (V.setQ 1 PS2 (.var ep) (.var x) (.const 0)).map QA.act⟩, some ep, false⟩
def bE : SBlk := ⟨f, ⟨[], (epdActs f).map PA.a⟩, none, false⟩

def shared : List SBlk :=
  [⟨V.g, ⟨[], [aPutM (V.g + 328) .set].map PA.a⟩, none, false⟩, ⟨V.gi, ⟨[], V.giActs.map PA.a⟩, none, false⟩, ⟨V.si, ⟨[], [aPutM (V.si + 328) .set].map PA.a⟩, none, false⟩] ++
  ((List.range 28).map (bitBlk V.ig V.lv [(V.gi + 348, 0, 72)] V.gi) ++ (List.range 28).map (bitBlk V.is V.lv [(V.si + 344, 0, 18)] V.si))

def snd (r : Option (Nat × List Blk)) : List Blk := (r.getD (0, [])).2

def seqs : List (List Blk) := [F.seqs, snd rF2, snd rF1, snd rE2, snd rE1, snd rC2, snd rC1]

def L0 : Layout := ⟨⟨shared ++ (rendBlk rend :: tabBlks A rend 0 T.trigs) ++ fendBlks [fret] fend ++ [bE, bF, bG, bS2, bS1] ++ F.blks, seqs.flatten, (List.range 12).map exVar⟩, F.rest, []⟩
def X : List (Nat × Nat) := pvPins cpc ++ (List.range 4).flatMap fun i => pvPins (arr + 72 * i)
def L : Layout := L0.pin X

def vs (xv yv : W) : List W := [xv, yv, 1, 2, 3, 4, 5, 2, 6, 7, 8, 9]
def elemHoles (n : Nat) : List (Nat × W) := [(arr + 72 * n + 4, BitVec.ofNat 32 V.g), (arr + 72 * n + 344, epd (V.g + 348)), (arr + 72 * n + 348, 0), (arr + 72 * n + 352, pmod .set)]
def holes : List (Nat × W) := [(cpc + 348, 5), (cpc + 352, pmod .set), (0xE040000, 0), (0xE040004, 144)] ++ (List.range 4).flatMap elemHoles
def mem (vals : List W) : Mem := L0.mem exBuf vals (pinHoles X ++ holes)

set_option maxRecDepth 4000 in
theorem laid (xv yv : W) : L0.Laid exBuf (vs xv yv) := Layout.laidB_spec (show L0.laidB exBuf 12 = true by decide +kernel)
theorem pins : L0.pinB exBuf 12 X = true := by decide +kernel
theorem laid0 : L0.Laid exBuf (vs 0 0) := laid 0 0
theorem wf : L.Wf := laid0.pinWf pins
theorem ok (xv yv : W) : L.Ok (mem (vs xv yv)) := (laid xv yv).pinOk pins holes
theorem cell {x : Nat} (h : L0.pinCellB X x = true) : L.cell x := laid0.pinCellB h
theorem vm {n : Nat} (h : n < 12) : exVar n ∈ L.P.vars := laid0.exVars h

def AA : VArrs where
  V := V
  n := 2
  base := fun k => arr + 144 * k
  len := fun _ => 2
  U := [x + 348, y + 348, p + 348, q + 348, ep + 348, eq + 348, o + 348]

def fS : List Nat := [f + 4, f + 1368, f + 1372]
def op1 : POp := .alloc nC2 (p + 348)
def op2 : POp := .alloc nE1 (q + 348)
def op3 : POp := .comp (epdCall L f nE2 (ep + 348) (.var p)) (ep + 348) (fun e => epdOf (e (p + 348))) fS
def op4 : POp := .comp (epdCall L f PS1 (eq + 348) (.var q)) (eq + 348) (fun e => epdOf (e (q + 348))) fS
def op5 : POp := .put (.var ep) (.var x) (.const 0) PS2
def op6 : POp := .put (.var eq) (.var y) (.const 0) PG
def op7 : POp := .get (.var p) (.const 0) nF1 (o + 348)
def op8 : POp := .free 0xE050000 ti td p
def ops : List POp := [op1, op2, op3, op4, op5, op6, op7, op8]

theorem pv {b : Nat} (h : b = cpc ∨ ∃ n < 4, b = arr + 72 * n) : PVar L b := by
  have h1 : ∀ b ∈ [cpc, arr + 72 * 0, arr + 72 * 1, arr + 72 * 2, arr + 72 * 3], (∀ r ∈ pvPins b, r ∈ X) ∧ (∀ o ∈ [4, 344, 348, 352], L0.Free exBuf 12 (b + o) ∧ ∀ r ∈ X, b + o ≠ r.1 + 4) := by decide +kernel
  have h2 : b ∈ [cpc, arr + 72 * 0, arr + 72 * 1, arr + 72 * 2, arr + 72 * 3] := by
    rcases h with rfl | ⟨n, hn, rfl⟩
    · exact .head _
    · have : n = 0 ∨ n = 1 ∨ n = 2 ∨ n = 3 := by omega
      rcases this with rfl | rfl | rfl | rfl <;> simp
  exact PVar.pin laid0 (h1 b h2).1 (h1 b h2).2

theorem b1 {b : SBlk} (h : b ∈ [bE, bF, bG, bS2, bS1]) : b ∈ L.P.blks := List.mem_append_left _ (List.mem_append_right _ h)
theorem b2 {b : SBlk} (h : b ∈ fendBlks [fret] fend) : b ∈ L.P.blks := List.mem_append_left _ (List.mem_append_left _ (List.mem_append_right _ h))
theorem b3 {b : SBlk} (h : b ∈ rendBlk rend :: tabBlks A rend 0 T.trigs) : b ∈ L.P.blks := List.mem_append_left _ (List.mem_append_left _ (List.mem_append_left _ (List.mem_append_right _ h)))
theorem sh {b : SBlk} (h : b ∈ shared) : b ∈ L.P.blks := List.mem_append_left _ (List.mem_append_left _ (List.mem_append_left _ (List.mem_append_left _ h)))
theorem sq {l : List Blk} (h : l ∈ seqs) : ∀ b ∈ l, b ∈ L.P.seqs := fun _ hb => List.mem_flatten.2 ⟨l, h, hb⟩

theorem shOk : V.Ok L where
  bg := sh (.head _)
  bgi := sh (.tail _ (.head _))
  bsi := sh (.tail _ (.tail _ (.head _)))
  big := fun n hn => sh (List.mem_append_right _ (List.mem_append_left _ (List.mem_map.2 ⟨n, List.mem_range.2 (by omega), rfl⟩)))
  bis := fun n hn => sh (List.mem_append_right _ (List.mem_append_right _ (List.mem_map.2 ⟨n, List.mem_range.2 (by omega), rfl⟩)))
  cell := by
    have : ∀ y ∈ V.scr, L0.pinCellB X y = true := by decide +kernel
    exact fun y hy => cell (this y hy)
  nd := by decide +kernel
  eg := by decide +kernel
  egi := by decide +kernel
  esi := by decide +kernel
  elv := by decide +kernel
  lg := by decide
  lsi := by decide
  lig := fun n hn => by simp only [V, trigAt]; omega
  lis := fun n hn => by simp only [V, trigAt]; omega

theorem tab : RdTab L T A rend := by
  have hc : ∀ x ∈ [rend + 4, rend + 344, rend + 348, cpAddr], L0.pinCellB X x = true := by decide +kernel
  have hc' : ∀ x ∈ [rend + 4, rend + 344, rend + 348, cpAddr], L.cell x := fun x hx => cell (hc x hx)
  refine ⟨fun t r h => ?_, b3 (.head _), hc' _ (by simp), hc' _ (by simp), hc' _ (by simp), hc' _ (by simp), by decide⟩
  have := tabBlks_mem (A := A) (rend := rend) (k := 0) h
  rw [Nat.zero_add] at this
  exact b3 (.tail _ this)

theorem reader1 : Reader L rend (A t1) 0xFFFFFFFF 0 :=
  Reader.of (q := q1) wf base [ExRead.q2] (by decide) ExRead.req1 (by rw [show (RT.run RT.empty base).run [ExRead.q2] = T from by decide +kernel]; exact tab)

theorem rdok : RdOk L rend cpc (v + 348) (.var k1) := by
  refine ⟨pv (Or.inl rfl), by decide +kernel, cell (by decide +kernel), by decide, by decide +kernel, by decide +kernel, by decide, ?_⟩
  intro v hv
  cases hv
  exact ⟨vm (n := 8) (by decide), by decide +kernel⟩

theorem inF : F.Into L := ⟨fun _ h => List.mem_append_right _ h, sq (.head _), fun _ h => List.mem_append_left _ h⟩

theorem fc : FuncCode L F.e fend nptr [fret] (P.body L) := by
  refine ⟨⟨0, 0, emitD_code (S := fun _ => rdS) (f := fun _ => .prim (EpdRel L rend cpc rnx (v + 348) 0xFFFFFFFF 0 (.var k1) none)) (es := es) ?_ (by decide +kernel) inF⟩,
    fendBlks_end (fun _ h => b2 h) (cell (by decide +kernel)) ?_ (by decide)⟩
  · intro j b k x n m E h hi
    unfold rdS at h
    split at h
    · rename_i hx
      split at h
      · rename_i hq
        cases h
        rw [hx]
        exact C32_epd_code wf tab reader1 rdok (by decide) (emitAsg_code hq hi.seqs _ _ _)
      · cases h
    · cases h
  · have h : ∀ v ∈ [fret], L0.pinCellB X (v + 4) = true ∧ v < 2 ^ 32 := by decide +kernel
    exact fun v hv => ⟨cell (h v hv).1, (h v hv).2⟩

theorem poolOk : P.Ok L where
  fc := fc
  rd := rdok
  vr := vm (n := 7) (by decide)
  vk := vm (n := 8) (by decide)
  vv := vm (n := 9) (by decide)
  cell := by
    have : ∀ y ∈ [P.rem + 348, P.k1 + 348, P.v + 348, P.fret + 348], L0.pinCellB X y = true := by decide +kernel
    exact fun y hy => cell (this y hy)
  nd := by decide +kernel
  al := by decide
  lt := by decide
  plain := by decide +kernel
  dc := by
    have : ∀ i < 2, L0.pinCellB X (P.data + 4 * i) = true ∧ P.data + 4 * i ∉ (P.cpc + 352) :: P.callScr := by decide +kernel
    exact fun i hi => ⟨cell (this i hi).1, (this i hi).2⟩

theorem atE {k i : Nat} (h : AA.In k i) : AA.at k i = arr + 72 * (2 * k + i) ∧ 2 * k + i < 4 := by
  have h1 : k < 2 := h.1
  have h2 : i < 2 := h.2
  simp only [VArrs.at, AA]
  omega

theorem arrOk : AA.Ok L where
  sh := shOk
  len := fun _ _ => show 2 < 2 ^ 28 by decide
  lt := fun k i h => by obtain ⟨h1, h2⟩ := atE h; rw [h1]; simp only [arr]; omega
  ep := fun k i h => by
    obtain ⟨h1, h2⟩ := atE h
    have : ∀ i < 4, EpdOK (arr + 72 * i + 348) := by decide +kernel
    rw [h1]
    exact this _ h2
  el := fun k i h => pv (Or.inr ⟨_, (atE h).2, (atE h).1⟩)
  inj := fun k i k' i' h h' e => by
    obtain ⟨h1, -⟩ := atE h
    obtain ⟨h3, -⟩ := atE h'
    have h5 : i < 2 := h.2
    have h6 : i' < 2 := h'.2
    rw [h1, h3] at e
    simp only [VSh.dws, List.mem_cons, List.not_mem_nil, or_false] at e
    omega
  esc := fun k i h => by
    obtain ⟨h1, h2⟩ := atE h
    have : ∀ i < 4, ∀ x ∈ VSh.dws (arr + 72 * i), x ∉ V.scr ∧ x ∉ AA.U := by decide +kernel
    rw [h1]
    exact this _ h2
  usc := by decide +kernel

theorem apart {l : List Nat} (h : ∀ y ∈ l, y ∉ AA.U ∧ y ∉ AA.V.scr ∧ ∀ i < 4, y ∉ VSh.dws (arr + 72 * i)) : Apart AA l := fun y hy =>
  ⟨(h y hy).1, (h y hy).2.1, fun k i hk => by rw [(atE hk).1]; exact (h y hy).2.2 _ (atE hk).2⟩

theorem okP : PoolOk L P AA 2 where
  pool := poolOk
  arr := arrOk
  n := rfl
  base := fun _ _ => rfl
  len := fun _ => rfl
  pos := by decide
  end' := by decide
  ap := apart (by decide +kernel)
  ak := apart (by decide +kernel)

theorem varOk {n : Nat} (h : n < 12) : VSh.VarOk L V (.var (exVar n)) := by
  rintro v hv
  cases hv
  have h1 : ∀ n < 12, exVar n + 348 ∉ V.scr ∧ EpdOK (exVar n + 4) ∧ EpdOK (exVar n + 344) := by decide +kernel
  exact ⟨vm h, h1 n h⟩

theorem constOk {c : W} : VSh.VarOk L V (.const c) := by rintro v hv; cases hv

theorem epdTrg : EpdTrg L f where
  blk := b1 (.head _)
  cell := by
    have : ∀ y ∈ [f + 4, f + 1368, f + 1372], L0.pinCellB X y = true := by decide +kernel
    exact fun y hy => cell (this y hy)
  lt := by decide

theorem vars : ∀ v ∈ (List.range 12).map exVar, v ∈ L.P.vars := fun _ h => h

theorem opsOk : ∀ op ∈ ops, op.Ok L P AA := by
  have hc : ∀ {c : W}, SrcIn AA.U (.const c) := by rintro c v h; cases h
  have hv : ∀ {v : Nat}, v + 348 ∈ AA.U → SrcIn AA.U (.var v) := by intro v h w e; cases e; exact h
  have epdComp : ∀ {n d v : Nat}, v ∈ L.P.vars → EpdOK d → L.cell d → d ≠ f + 4 → d ≠ f + 1372 → v + 348 ≠ f + 4 ∧ v + 348 ≠ f + 1368 →
      Comp L (epdCall L f n d (.var v)) d (fun e => epdOf (e (v + 348))) fS := by
    intro n d v h1 h2 h3 h4 h5 h6 s
    refine (C54_epd epdTrg (p := .var v) (by intro w hw; cases hw; exact ⟨h1, h6⟩) h2 h3 h4 h5 s).mono fun s' h => ⟨h.1, h.2.2⟩
  intro op h
  rcases List.mem_cons.1 h with rfl | h
  · exact ⟨callOkB_spec (fun _ => cell) vars (by decide +kernel), by decide +kernel, by decide⟩
  rcases List.mem_cons.1 h with rfl | h
  · exact ⟨callOkB_spec (fun _ => cell) vars (by decide +kernel), by decide +kernel, by decide⟩
  rcases List.mem_cons.1 h with rfl | h
  · exact ⟨epdComp (vm (n := 2) (by decide)) (by decide +kernel) (cell (by decide +kernel)) (by decide) (by decide) (by decide), by decide, apart (by decide +kernel), by decide +kernel,
      fun s e h => congrArg epdOf (h _ (by decide))⟩
  rcases List.mem_cons.1 h with rfl | h
  · exact ⟨epdComp (vm (n := 3) (by decide)) (by decide +kernel) (cell (by decide +kernel)) (by decide) (by decide) (by decide), by decide, apart (by decide +kernel), by decide +kernel,
      fun s e h => congrArg epdOf (h _ (by decide))⟩
  rcases List.mem_cons.1 h with rfl | h
  · exact ⟨hv (by decide), hv (by decide), hc⟩
  rcases List.mem_cons.1 h with rfl | h
  · exact ⟨hv (by decide), hv (by decide), hc⟩
  rcases List.mem_cons.1 h with rfl | h
  · exact ⟨hv (by decide), hc, by decide⟩
  rcases List.mem_cons.1 h with rfl | h
  · refine ⟨⟨⟨?_, vm (n := 11) (by decide), cell (by decide +kernel), by decide, ?_⟩, cell (by decide +kernel), vm (n := 2) (by decide), by decide, by decide +kernel⟩, by decide, apart (by decide +kernel)⟩
    · intro v _; exact cell (by decide +kernel)
    · rintro v (h | h | h) <;> cases h
      · exact ⟨vm (n := 7) (by decide), by decide⟩
      · exact ⟨vm (n := 10) (by decide), by decide⟩
  · cases h

theorem asgCode {x m : Nat} {l : List Asg} {r : Option (Nat × List Blk)} (hr : emitAsg x m l = r) (hs : r.isSome = true) (hm : snd r ∈ seqs) : Code L retAt 0 0 (.asg l) (r.getD (0, [])).1 x := by
  have h : r = some ((r.getD (0, [])).1, (r.getD (0, [])).2) := some_getD hs (0, [])
  exact emitAsg_code (hr.trans h) (sq hm) retAt 0 0

theorem c8 : Code L retAt 0 0 (op8.stmt L P AA) nF1 haltAt :=
  .seq (asgCode (r := rF1) rfl (by decide +kernel) (by simp [seqs])) (.seq
    (isetVC_code (c := epd 0xE040000) (a := rem) wf (Or.inr ⟨rfl, rfl⟩) (vm (n := 7) (by decide)) (vm (n := 10) (by decide)) (by decide) (by decide) (by decide +kernel) (by decide +kernel) (b1 (.tail _ (.head _))))
    (asgCode (r := rF2) rfl (by decide +kernel) (by simp [seqs])))

theorem c7 : Code L retAt 0 0 (op7.stmt L P AA) PG nF1 :=
  VSh.get_code wf shOk (k := 1) (a := .var p) (idx := .const 0) (by decide) (by decide +kernel) (by decide +kernel) (cell (by decide +kernel)) (by decide +kernel) (varOk (n := 2) (by decide)) constOk
    (by intro v h h2; cases h2) (b1 (.tail _ (.tail _ (.head _))))

theorem c6 : Code L retAt 0 0 (op6.stmt L P AA) PS2 PG :=
  VSh.set_code wf shOk (k := 1) (e := .var eq) (x := .var y) (i := .const 0) (by decide) (by decide) (varOk (n := 5) (by decide)) (varOk (n := 1) (by decide)) constOk
    (by intro v h; cases h; exact ⟨by decide, by decide⟩) (by intro v h h2; cases h2) (by rintro ⟨a, b, c, h, h2, h3⟩; cases h) (b1 (.tail _ (.tail _ (.tail _ (.head _)))))

theorem c5 : Code L retAt 0 0 (op5.stmt L P AA) PS1 PS2 :=
  VSh.set_code wf shOk (k := 1) (e := .var ep) (x := .var x) (i := .const 0) (by decide) (by decide) (varOk (n := 4) (by decide)) (varOk (n := 0) (by decide)) constOk
    (by intro v h; cases h; exact ⟨by decide, by decide⟩) (by intro v h h2; cases h2) (by rintro ⟨a, b, c, h, h2, h3⟩; cases h) (b1 (.tail _ (.tail _ (.tail _ (.tail _ (.head _))))))

theorem c4 : Code L retAt 0 0 (op4.stmt L P AA) nE2 PS1 := .seq (asgCode (r := rE2) rfl (by decide +kernel) (by simp [seqs])) (epdTrg_code wf epdTrg (by decide))
theorem c3 : Code L retAt 0 0 (op3.stmt L P AA) nE1 nE2 := .seq (asgCode (r := rE1) rfl (by decide +kernel) (by simp [seqs])) (epdTrg_code wf epdTrg (by decide +kernel))
theorem c2 : Code L retAt 0 0 (op2.stmt L P AA) nC2 nE1 :=
  C31_call (rs := [(fret, q + 348)]) wf fc ⟨⟨retAt, 0, 0, asgCode (r := rC2) rfl (by decide +kernel) (by simp [seqs])⟩, by decide +kernel⟩ (by decide +kernel) _ _ _
theorem c1 : Code L retAt 0 0 (op1.stmt L P AA) entry nC2 :=
  C31_call (rs := [(fret, p + 348)]) wf fc ⟨⟨retAt, 0, 0, asgCode (r := rC1) rfl (by decide +kernel) (by simp [seqs])⟩, by decide +kernel⟩ (by decide +kernel) _ _ _

theorem code : Code L retAt 0 0 (.seqs (ops.map (POp.stmt L P AA))) entry haltAt := .seq c1 (.seq c2 (.seq c3 (.seq c4 (.seq c5 (.seq c6 (.seq c7 (.seq c8 .skip)))))))

theorem objE {w : W} (h : w ∈ P.objs) : w = 0xE020000 ∨ w = 0xE020090 := by
  have : P.objs = [0xE020000, 0xE020090] := by decide +kernel
  rw [this] at h
  simpa using h

theorem objEpd {w : W} (h : w ∈ P.objs) : epdOf w = epd w.toNat := by
  rcases objE h with rfl | rfl <;> decide +kernel

/-- Whatever objects the pool hands out, `o` is `x`, and one object is live. -/
theorem safe {xv yv : W} {e : Mem} (hx : e (x + 348) = xv) (hy : e (y + 348) = yv) : POp.safe P.objs 2 ops ⟨[], fun _ _ => 0, e⟩ fun H => H.env (o + 348) = xv ∧ H.live.length = 1 := by
  refine ⟨fun h => absurd (h 0xE020000 (by decide +kernel)) (by simp), fun a ha _ => ⟨fun h => ?_, fun b hb hab => ?_⟩⟩
  · have h1 := h 0xE020000 (by decide +kernel)
    have h2 := h 0xE020090 (by decide +kernel)
    simp only [List.mem_singleton] at h1 h2
    rw [← h1] at h2
    exact absurd h2 (by decide)
  · simp only [List.mem_singleton] at hab
    have v0 : (e.set (p + 348) a).set (q + 348) b (p + 348) = a := by rw [set_ne (by decide), set_eq]
    have v1 : ((e.set (p + 348) a).set (q + 348) b).set (ep + 348) (epdOf a) (q + 348) = b := by rw [set_ne (by decide), set_eq]
    have n1 : ep + 348 ≠ eq + 348 := by decide
    have n2 : p + 348 ≠ q + 348 ∧ p + 348 ≠ ep + 348 ∧ p + 348 ≠ eq + 348 ∧ p + 348 ≠ o + 348 := by decide
    have n3 : x + 348 ≠ p + 348 ∧ x + 348 ≠ q + 348 ∧ x + 348 ≠ ep + 348 ∧ x + 348 ≠ eq + 348 := by decide
    have n4 : y + 348 ≠ p + 348 ∧ y + 348 ≠ q + 348 ∧ y + 348 ≠ ep + 348 ∧ y + 348 ≠ eq + 348 := by decide
    simp only [POp.safe, op3, op4, op5, op6, op7, op8, Src.valM, v0, v1]
    refine ⟨by decide, a, by simp, by rw [set_ne n1, set_eq, objEpd ha], by decide, b, by simp, by rw [set_eq, objEpd hb], ?_, by decide, ?_, ?_, ?_⟩
    · rw [set_ne n2.2.2.1, set_ne n2.2.1, set_ne n2.1, set_eq]; simp
    · rw [set_ne n2.2.2.2, set_ne n2.2.2.1, set_ne n2.2.1, set_ne n2.1, set_eq]; simp
    · have e1 : ((((e.set (p + 348) a).set (q + 348) b).set (ep + 348) (epdOf a)).set (eq + 348) (epdOf b)) (p + 348) = a := by rw [set_ne n2.2.2.1, set_ne n2.2.1, set_ne n2.1, set_eq]
      have e2 : ((((e.set (p + 348) a).set (q + 348) b).set (ep + 348) (epdOf a)).set (eq + 348) (epdOf b)) (x + 348) = xv := by
        rw [set_ne n3.2.2.2, set_ne n3.2.2.1, set_ne n3.2.1, set_ne n3.1, hx]
      rw [set_eq, e1, e2]
      simp [Ne.symm hab]
    · rw [set_ne n2.2.2.2, set_ne n2.2.2.1, set_ne n2.2.1, set_ne n2.1, set_eq]
      simp [hab]

theorem run (xv yv : W) : ∃ m', Reaches ⟨mem (vs xv yv), entry⟩ ⟨m', haltAt⟩ ∧ m' (o + 348) = xv ∧ m' (rem + 348) = 1 := by
  have hl := laid xv yv
  have hvw : ∀ y, L0.pinCellB X y = true → L.view (mem (vs xv yv)) y = mem (vs xv yv) y := fun y h => Layout.view_at (cell h).2
  have vv : ∀ n : Nat, (h : n < 12) → L.view (mem (vs xv yv)) (exVar n + 348) = (vs xv yv)[n]'h := by
    intro n h
    have : ∀ n < 12, L0.pinCellB X (exVar n + 348) = true := by decide +kernel
    rw [hvw _ (this n h)]
    exact (hl.ok _).2 n h
  have el : ∀ i < 4, ∀ o ∈ [4, 344, 348, 352], L.view (mem (vs xv yv)) (arr + 72 * i + o) =
      match (pinHoles X ++ holes).find? (fun r => r.1 == arr + 72 * i + o) with | some r => r.2 | none => 0 := by
    intro i hi o ho
    have hc : ∀ i < 4, ∀ o ∈ [4, 344, 348, 352], L0.pinCellB X (arr + 72 * i + o) = true := by decide +kernel
    have fr : ∀ i < 4, ∀ o ∈ [4, 344, 348, 352], L0.Free exBuf 12 (arr + 72 * i + o) := by decide +kernel
    rw [hvw _ (hc i hi o ho)]
    exact hl.free (fr i hi o ho) (by decide) _
  have I : VArrIs AA (L.view (mem (vs xv yv))) (fun _ _ => 0, L.view (mem (vs xv yv))) := by
    refine ⟨fun k i h => ?_, fun k i h => ?_, ?_, fun _ _ => rfl⟩
    · have hv : ∀ i < 4, (match (pinHoles X ++ holes).find? (fun r => r.1 == arr + 72 * i + 348) with | some r => r.2 | none => 0) = 0 := by decide +kernel
      rw [(atE h).1]
      exact (el _ (atE h).2 348 (by simp)).trans (hv _ (atE h).2)
    · have h1 : ∀ i < 4, (match (pinHoles X ++ holes).find? (fun r => r.1 == arr + 72 * i + 4) with | some r => r.2 | none => 0) = BitVec.ofNat 32 V.g := by decide +kernel
      have h2 : ∀ i < 4, (match (pinHoles X ++ holes).find? (fun r => r.1 == arr + 72 * i + 344) with | some r => r.2 | none => 0) = epd (V.g + 348) := by decide +kernel
      have h3 : ∀ i < 4, (match (pinHoles X ++ holes).find? (fun r => r.1 == arr + 72 * i + 352) with | some r => r.2 | none => 0) = pmod .set := by decide +kernel
      rw [(atE h).1]
      exact ⟨(el _ (atE h).2 4 (by simp)).trans (h1 _ (atE h).2), (el _ (atE h).2 344 (by simp)).trans (h2 _ (atE h).2), (el _ (atE h).2 352 (by simp)).trans (h3 _ (atE h).2)⟩
    · rw [show AA.V.gi = V.gi from rfl, hvw _ (by decide +kernel)]
      have := (hl.hole (b := ⟨V.gi, ⟨[], V.giActs.map PA.a⟩, none, false⟩) (List.mem_append_left _ (List.mem_append_left _ (List.mem_append_left _ (List.mem_append_left _ (.tail _ (.head _)))))) (o := 348)
        (by decide) (by decide +kernel) (by decide) (pinHoles X ++ holes)).2
      exact this.trans (by decide +kernel)
  have J : PoolIs P AA (L.view (mem (vs xv yv))) ⟨[], fun _ _ => 0, L.view (mem (vs xv yv))⟩ := by
    refine Pool.init okP (vv 7 (by decide)) ?_ ?_ ?_ I
    · intro i hi
      have hc : ∀ i < 2, L0.pinCellB X (P.data + 4 * i) = true ∧ L0.Free exBuf 12 (P.data + 4 * i) := by decide +kernel
      have hv : ∀ i < 2, (match (pinHoles X ++ holes).find? (fun r => r.1 == P.data + 4 * i) with | some r => r.2 | none => 0) = BitVec.ofNat 32 (P.stride * i) := by decide +kernel
      rw [hvw _ (hc i hi).1]
      exact (hl.free (hc i hi).2 (by decide) _).trans (hv i hi)
    · rw [hvw _ (by decide +kernel)]
      exact (hl.free (show L0.Free exBuf 12 (cpc + 352) by decide +kernel) (by decide) _).trans (by decide +kernel)
    · rw [hvw _ (by decide +kernel)]
      have := (hl.hole (show rendBlk rend ∈ L0.P.blks from List.mem_append_left _ (List.mem_append_left _ (List.mem_append_left _ (List.mem_append_right _ (.head _))))) (o := 348)
        (by decide) (by decide +kernel) (by decide) (pinHoles X ++ holes)).2
      exact this.trans (by decide +kernel)
  obtain ⟨s', x1, H, h1, h2, h3⟩ := C41_pool wf okP ops _ _ _ opsOk J (safe (vv 0 (by decide)) (vv 1 (by decide)))
  obtain ⟨m', rr, ok', hv'⟩ := (C25_structured wf x1 code) _ (ok xv yv) rfl
  refine ⟨m', rr, ?_, ?_⟩
  · rw [← Layout.view_at (m := m') (cell (show L0.pinCellB X (o + 348) = true by decide +kernel)).2, hv', h1.v.u (o + 348) (by decide +kernel)]
    exact h2
  · rw [← Layout.view_at (m := m') (cell (show L0.pinCellB X (rem + 348) = true by decide +kernel)).2, hv']
    obtain ⟨fr, g1, g2⟩ := h1.fr
    have hlen := g2.length_eq
    rw [List.length_append, List.length_map, h3, show P.objs.length = 2 by decide +kernel] at hlen
    exact g1.len.trans (by rw [show fr.length = 1 by omega]; rfl)

end ExPool

end Eud.SC
