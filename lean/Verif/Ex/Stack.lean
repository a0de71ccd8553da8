import Verif.Ex.Read
import Verif.Ex.VArr
import Verif.Lib.Stack
/-
Example for C40: `st = EUDStack(2); st.push(x); st.push(y); o = st.pop(); z = st.empty()` in memory, for all `x` and `y`.
-/

namespace Eud.SC

namespace ExStack

open ExRead (q1 t1 T base tabBlks tabBlks_mem some_getD)
open ExVArr (bitBlk)

/-- The structure, its array, and the variable with the current player. -/
def stk : Nat := 0xE020000
def arr : Nat := 0xE040000
def cpc : Nat := 0xE000000
def x : Nat := exVar 0
def y : Nat := exVar 1
def o : Nat := exVar 2
def z : Nat := exVar 3
def vd : Nat := exVar 4
def vp : Nat := exVar 5
def vq : Nat := exVar 6
def ti : Nat := exVar 7
def t : Nat := exVar 8

def V : VSh where
  g := trigAt 0
  gi := trigAt 1
  si := trigAt 2
  lv := 0xE030000
  ig := fun n => trigAt (3 + n)
  is := fun n => trigAt (31 + n)

def rend : Nat := trigAt 61
def A (t : Nat) : Nat := trigAt (62 + t)
/-- Triggers of the program. -/
def pr (n : Nat) : Nat := trigAt (170 + n)

def D : List Nat := [x + 348, y + 348, o + 348, z + 348]
def U : List Nat := D ++ [vd + 348, vp + 348, vq + 348, t + 348]

def AA : VArrs where
  V := V
  n := 1
  base := fun _ => stk
  len := fun _ => 2
  U := U

def BB : Arrs where
  n := 1
  base := fun _ => arr
  len := fun _ => 2
  rend := rend
  cpc := cpc
  U := U

def S : Stks := ⟨1, fun _ => 0, fun _ => 0, D⟩

def a : Src := .const (BitVec.ofNat 32 stk)
def e : Src := .const (epd stk)

def iteE : Stmt := .ite .skip [cMem (vp + 348) .exactly 0] (.asg [⟨z + 348, .set, .const 1⟩]) (.asg [⟨z + 348, .set, .const 0⟩])
def E : Emitted := emitD retAt (fun _ _ _ _ _ _ => none) (.base iteE) 0 0 haltAt 190 0

def r5 : Option (Nat × List Blk) := emitAsg (A t1) 20 (epdOps rend cpc (pr 16) (o + 348) (.var t) none)
def n5 : Nat := (r5.getD (0, [])).1
def r4 : Option (Nat × List Blk) := emitAsg n5 30 (sumAsg t (.var vd) (.var vp))
def n4 : Nat := (r4.getD (0, [])).1
def r3 : Option (Nat × List Blk) := emitAsg (pr 13) 40 [⟨vq + 348, .add, .const (-1)⟩]
def n3 : Nat := (r3.getD (0, [])).1
def r2 : Option (Nat × List Blk) := emitAsg (pr 11) 50 [⟨vq + 348, .add, .const 1⟩]
def n2 : Nat := (r2.getD (0, [])).1
def r1 : Option (Nat × List Blk) := emitAsg (pr 6) 60 [⟨vq + 348, .add, .const 1⟩]
def n1 : Nat := (r1.getD (0, [])).1

def opN : SOp := .new 0 e (pr 1) (pr 2)
def opX : SOp := .push 0 a e (.var x) vd vp vq 0xE050000 ti (pr 3) (pr 4) n1 (pr 7)
def opY : SOp := .push 0 a e (.var y) vd vp vq 0xE050000 ti (pr 8) (pr 9) n2 (pr 12)
def opP : SOp := .pop 0 a e vd vp vq t (sumAsg t (.var vd) (.var vp)) (.var t) n3 (pr 14) (pr 15) n4 (pr 16) (o + 348)
def opE : SOp := .empty 0 a vp E.e (z + 348)
def ops : List SOp := [opN, opX, opY, opP, opE]

def cst (n : Nat) (i w : W) : SBlk := ⟨pr n, ⟨[], [(aMem (epdAddr (87 + epd stk + 18 * i)) .set w).a]⟩, some (pr (n + 1)), false⟩
def get (n : Nat) (i : W) (nx v : Nat) : SBlk := ⟨pr n, ⟨[], (V.getQ 1 nx (v + 348) a (.const i)).map QA.act⟩, some (VSh.getN a (.const i)), false⟩
def set (n nx : Nat) : SBlk := ⟨pr n, ⟨[], (V.setQ 1 nx e (.var vq) (.const 1)).map QA.act⟩, some (VSh.setN e (.var vq) (.const 1)), false⟩
def put (n v : Nat) : SBlk := ⟨pr n, ⟨[], (isetVV vd vp v (pr (n + 1)) .set).map QA.act⟩, some vd, false⟩

def own : List SBlk := [cst 0 0 (epd arr), cst 1 1 0,
  get 2 0 (pr 3) vd, get 3 1 (pr 4) vp, put 4 x, get 5 1 n1 vq, set 6 (pr 7),
  get 7 0 (pr 8) vd, get 8 1 (pr 9) vp, put 9 y, get 10 1 n2 vq, set 11 (pr 12),
  get 12 1 n3 vq, set 13 (pr 14), get 14 0 (pr 15) vd, get 15 1 n4 vp, get 16 1 E.e vp]

def shared : List SBlk :=
  [⟨V.g, ⟨[], [aPutM (V.g + 328) .set].map PA.a⟩, none, false⟩, ⟨V.gi, ⟨[], V.giActs.map PA.a⟩, none, false⟩, ⟨V.si, ⟨[], [aPutM (V.si + 328) .set].map PA.a⟩, none, false⟩] ++
  ((List.range 28).map (bitBlk V.ig V.lv [(V.gi + 348, 0, 72)] V.gi) ++ (List.range 28).map (bitBlk V.is V.lv [(V.si + 344, 0, 18)] V.si))

def snd (r : Option (Nat × List Blk)) : List Blk := (r.getD (0, [])).2

def seqs : List (List Blk) := [E.seqs, snd r5, snd r4, snd r3, snd r2, snd r1]

def L0 : Layout := ⟨⟨shared ++ (rendBlk rend :: tabBlks A rend 0 T.trigs) ++ own ++ E.blks, seqs.flatten, (List.range 9).map exVar⟩, E.rest, []⟩
def X : List (Nat × Nat) := pvPins cpc ++ (List.range 2).flatMap fun i => pvPins (stk + 72 * i)
def L : Layout := L0.pin X

def vs (xv yv : W) : List W := [xv, yv, 1, 2, 3, 4, 5, 6, 7]
def elemHoles (n : Nat) : List (Nat × W) := [(stk + 72 * n + 4, BitVec.ofNat 32 V.g), (stk + 72 * n + 344, epd (V.g + 348)), (stk + 72 * n + 348, 0), (stk + 72 * n + 352, pmod .set)]
def holes : List (Nat × W) := [(cpc + 348, 5), (cpc + 352, pmod .set), (arr, 0), (arr + 4, 0)] ++ (List.range 2).flatMap elemHoles
def mem (vals : List W) : Mem := L0.mem exBuf vals (pinHoles X ++ holes)

set_option maxRecDepth 4000 in
theorem laid (xv yv : W) : L0.Laid exBuf (vs xv yv) := Layout.laidB_spec (show L0.laidB exBuf 9 = true by decide +kernel)
theorem pins : L0.pinB exBuf 9 X = true := by decide +kernel
theorem laid0 : L0.Laid exBuf (vs 0 0) := laid 0 0
theorem wf : L.Wf := laid0.pinWf pins
theorem ok (xv yv : W) : L.Ok (mem (vs xv yv)) := (laid xv yv).pinOk pins holes
theorem cell {x : Nat} (h : L0.pinCellB X x = true) : L.cell x := laid0.pinCellB h
theorem vm {n : Nat} (h : n < 9) : exVar n ∈ L.P.vars := laid0.exVars h

theorem pv {b : Nat} (h : b = cpc ∨ ∃ n < 2, b = stk + 72 * n) : PVar L b := by
  have h1 : ∀ b ∈ [cpc, stk + 72 * 0, stk + 72 * 1], (∀ r ∈ pvPins b, r ∈ X) ∧ (∀ o ∈ [4, 344, 348, 352], L0.Free exBuf 9 (b + o) ∧ ∀ r ∈ X, b + o ≠ r.1 + 4) := by decide +kernel
  have h2 : b ∈ [cpc, stk + 72 * 0, stk + 72 * 1] := by
    rcases h with rfl | ⟨n, hn, rfl⟩
    · exact .head _
    · have : n = 0 ∨ n = 1 := by omega
      rcases this with rfl | rfl <;> simp
  exact PVar.pin laid0 (h1 b h2).1 (h1 b h2).2

theorem b1 {b : SBlk} (h : b ∈ own) : b ∈ L.P.blks := List.mem_append_left _ (List.mem_append_right _ h)
theorem b3 {b : SBlk} (h : b ∈ rendBlk rend :: tabBlks A rend 0 T.trigs) : b ∈ L.P.blks := List.mem_append_left _ (List.mem_append_left _ (List.mem_append_right _ h))
theorem sh {b : SBlk} (h : b ∈ shared) : b ∈ L.P.blks := List.mem_append_left _ (List.mem_append_left _ (List.mem_append_left _ h))
theorem sq {l : List Blk} (h : l ∈ seqs) : ∀ b ∈ l, b ∈ L.P.seqs := fun _ hb => List.mem_flatten.2 ⟨l, h, hb⟩
theorem bn {b : SBlk} (n : Nat) (h : own[n]? = some b) : b ∈ L.P.blks := b1 (List.mem_of_getElem? h)

theorem shOk : V.Ok L where
  bg := sh (.head _)
  bgi := sh (.tail _ (.head _))
  bsi := sh (.tail _ (.tail _ (.head _)))
  big := fun n hn => sh (List.mem_append_right _ (List.mem_append_left _ (List.mem_map.2 ⟨n, List.mem_range.2 (by omega), rfl⟩)))
  bis := fun n hn => sh (List.mem_append_right _ (List.mem_append_right _ (List.mem_map.2 ⟨n, List.mem_range.2 (by omega), rfl⟩)))
  cell := by
    have : ∀ y ∈ V.scr, L0.pinCellB X y = true := by decide +kernel
    exact fun y hy => cell (this y hy)
  nd := by decide +kernel
  eg := by decide +kernel
  egi := by decide +kernel
  esi := by decide +kernel
  elv := by decide +kernel
  lg := by decide
  lsi := by decide
  lig := fun n hn => by simp only [V, trigAt]; omega
  lis := fun n hn => by simp only [V, trigAt]; omega

theorem tab : RdTab L T A rend := by
  have hc : ∀ x ∈ [rend + 4, rend + 344, rend + 348, cpAddr], L0.pinCellB X x = true := by decide +kernel
  have hc' : ∀ x ∈ [rend + 4, rend + 344, rend + 348, cpAddr], L.cell x := fun x hx => cell (hc x hx)
  refine ⟨fun t r h => ?_, b3 (.head _), hc' _ (by simp), hc' _ (by simp), hc' _ (by simp), hc' _ (by simp), by decide⟩
  have := tabBlks_mem (A := A) (rend := rend) (k := 0) h
  rw [Nat.zero_add] at this
  exact b3 (.tail _ this)

theorem reader1 : Reader L rend (A t1) 0xFFFFFFFF 0 :=
  Reader.of (q := q1) wf base [ExRead.q2] (by decide) ExRead.req1 (by rw [show (RT.run RT.empty base).run [ExRead.q2] = T from by decide +kernel]; exact tab)

theorem rdok : RdOk L rend cpc (o + 348) (.var t) := by
  refine ⟨pv (Or.inl rfl), by decide +kernel, cell (by decide +kernel), by decide, by decide +kernel, by decide +kernel, by decide, ?_⟩
  intro v hv
  cases hv
  exact ⟨vm (n := 8) (by decide), by decide +kernel⟩

theorem atE {k i : Nat} (h : AA.In k i) : k = 0 ∧ AA.at k i = stk + 72 * i ∧ i < 2 := by
  have h1 : k < 1 := h.1
  have h2 : i < 2 := h.2
  exact ⟨by omega, rfl, h2⟩

theorem atB {k i : Nat} (h : BB.In k i) : k = 0 ∧ BB.at k i = arr + 4 * i ∧ i < 2 := by
  have h1 : k < 1 := h.1
  have h2 : i < 2 := h.2
  exact ⟨by omega, rfl, h2⟩

theorem aaOk : AA.Ok L where
  sh := shOk
  len := fun _ _ => show 2 < 2 ^ 28 by decide
  lt := fun k i h => by obtain ⟨-, h1, h2⟩ := atE h; rw [h1]; simp only [stk]; omega
  ep := fun k i h => by
    obtain ⟨-, h1, h2⟩ := atE h
    have : ∀ i < 2, EpdOK (stk + 72 * i + 348) := by decide +kernel
    rw [h1]
    exact this _ h2
  el := fun k i h => pv (Or.inr ⟨_, (atE h).2.2, (atE h).2.1⟩)
  inj := fun k i k' i' h h' e => by
    obtain ⟨h0, h1, -⟩ := atE h
    obtain ⟨h0', h3, -⟩ := atE h'
    have h5 : i < 2 := h.2
    have h6 : i' < 2 := h'.2
    rw [h1, h3] at e
    simp only [VSh.dws, List.mem_cons, List.not_mem_nil, or_false] at e
    omega
  esc := fun k i h => by
    obtain ⟨-, h1, h2⟩ := atE h
    have : ∀ i < 2, ∀ x ∈ VSh.dws (stk + 72 * i), x ∉ V.scr ∧ x ∉ AA.U := by decide +kernel
    rw [h1]
    exact this _ h2
  usc := by decide +kernel

theorem bbOk : BB.Ok L where
  al := fun _ _ => show arr % 4 = 0 by decide
  lt := fun k i h => by have := (atB h).2.2; rw [(atB h).2.1]; simp only [arr]; omega
  plain := fun k i h => by
    have : ∀ i < 2, PlainEpd (epd arr + BitVec.ofNat 32 i) := by decide +kernel
    exact this i (atB h).2.2
  cell := fun k i h => by
    have : ∀ i < 2, L0.pinCellB X (arr + 4 * i) = true := by decide +kernel
    exact cell (this i (atB h).2.2)
  inj := fun k i k' i' h h' e => by
    have h1 := atB h
    have h2 := atB h'
    rw [h1.2.1, h2.2.1] at e
    omega
  rdn := fun k i h => by
    have : ∀ i < 2, arr + 4 * i ∉ BB.rd := by decide +kernel
    exact this i (atB h).2.2
  un := fun k i h => by
    have : ∀ i < 2, arr + 4 * i ∉ BB.U := by decide +kernel
    exact this i (atB h).2.2
  urd := by decide +kernel

theorem apart {l : List Nat} (h : ∀ y ∈ l, y ∉ AA.U ∧ y ∉ AA.V.scr ∧ ∀ i < 2, y ∉ VSh.dws (stk + 72 * i)) : Apart AA l := fun y hy =>
  ⟨(h y hy).1, (h y hy).2.1, fun k i hk => by rw [(atE hk).2.1]; exact (h y hy).2.2 _ (atE hk).2.2⟩

theorem okS : StkOk L AA BB S where
  mix := ⟨aaOk, bbOk, rfl, apart (by decide +kernel)⟩
  d := by decide +kernel
  k := fun _ _ => ⟨Nat.one_pos, Nat.le_refl 2⟩
  j := fun _ _ => Nat.one_pos
  cap := fun _ _ => show 2 < 2 ^ 32 by decide
  ki := fun i hi i' hi' _ => by simp only [S] at hi hi'; omega
  ji := fun i hi i' hi' _ => by simp only [S] at hi hi'; omega

theorem inC {c : W} : SrcIn S.D (.const c) := by rintro v h; cases h
theorem tmp {v : Nat} (h : v ∈ [vd, vp, vq]) : TmpOk L AA S v := by
  have : ∀ v ∈ [vd, vp, vq], v + 348 ∈ AA.U ∧ v + 348 ∉ S.D := by decide +kernel
  exact ⟨(this v h).1, (this v h).2⟩

theorem pushOk {v n : Nat} (hv : v = exVar n) (hn : n < 2) {n1 n2 n3 n4 : Nat} : (SOp.push 0 a e (.var v) vd vp vq 0xE050000 ti n1 n2 n3 n4).Ok L AA BB S := by
  have h0 : ∀ n < 2, exVar n + 348 ∈ S.D ∧ exVar n ≠ ti := by decide +kernel
  refine ⟨inC, inC, ?_, fun v h => tmp h, by decide, cell (by decide +kernel), ⟨fun _ _ => cell (by decide +kernel), vm (n := 7) (by decide), cell (by decide +kernel), by decide, ?_⟩, ?_, apart (by decide +kernel)⟩
  · intro w h; cases h; rw [hv]; exact (h0 n hn).1
  · rintro w (h | h | h) <;> cases h
    · exact ⟨vm (n := 4) (by decide), by decide⟩
    · exact ⟨vm (n := 5) (by decide), by decide⟩
    · rw [hv]; exact ⟨vm (by omega), (h0 n hn).2⟩
  · have h1 : ∀ y ∈ [ti + 348, 0xE050000, 0xE050000 + 16, 0xE050000 + 20], y ∉ BB.U ∧ y ∉ BB.rd ∧ ∀ i < 2, arr + 4 * i ≠ y := by decide +kernel
    exact fun y hy => ⟨(h1 y hy).1, (h1 y hy).2.1, fun k i h => by rw [(atB h).2.1]; exact (h1 y hy).2.2 i (atB h).2.2⟩

theorem opsOk : ∀ op ∈ ops, op.Ok L AA BB S := by
  intro op h
  rcases List.mem_cons.1 h with rfl | h
  · exact inC
  rcases List.mem_cons.1 h with rfl | h
  · exact pushOk (n := 0) rfl (by decide)
  rcases List.mem_cons.1 h with rfl | h
  · exact pushOk (n := 1) rfl (by decide)
  rcases List.mem_cons.1 h with rfl | h
  · refine ⟨inC, inC, fun v h => tmp h, by decide, cell (by decide +kernel), .fresh (by rintro ⟨c, d, h1, h2⟩; cases h1), by decide, by decide, ⟨?_, ?_⟩, ?_, rdok, by decide +kernel⟩
    · intro g hg
      refine ⟨?_, ?_, ?_⟩
      · rw [(sumAsg_mem hg).1]; exact cell (by decide +kernel)
      · rw [(sumAsg_mem hg).1]; decide +kernel
      · intro v hv
        rcases (sumAsg_mem hg).2 with h | h <;> rw [h] at hv <;> cases hv <;> decide +kernel
    · intro g hg v hv
      rcases (sumAsg_mem hg).2 with h | h <;> rw [h] at hv <;> cases hv
      · exact vm (n := 4) (by decide)
      · exact vm (n := 5) (by decide)
    · intro g hg
      rw [(sumAsg_mem hg).1]; decide +kernel
  rcases List.mem_cons.1 h with rfl | h
  · exact ⟨inC, tmp (by simp), cell (by decide +kernel), cell (by decide +kernel), by decide +kernel⟩
  · cases h

theorem varOk {n : Nat} (h : n < 9) : VSh.VarOk L V (.var (exVar n)) := by
  rintro v hv
  cases hv
  have h1 : ∀ n < 9, exVar n + 348 ∉ V.scr ∧ EpdOK (exVar n + 4) ∧ EpdOK (exVar n + 344) := by decide +kernel
  exact ⟨vm h, h1 n h⟩

theorem constOk {c : W} : VSh.VarOk L V (.const c) := by rintro v hv; cases hv

theorem asgCode {x m : Nat} {l : List Asg} {r : Option (Nat × List Blk)} (hr : emitAsg x m l = r) (hs : r.isSome = true) (hm : snd r ∈ seqs) : Code L retAt 0 0 (.asg l) (r.getD (0, [])).1 x := by
  have h : r = some ((r.getD (0, [])).1, (r.getD (0, [])).2) := some_getD hs (0, [])
  exact emitAsg_code (hr.trans h) (sq hm) retAt 0 0

theorem getCode {n nx v : Nat} {i : W} (h : own[n]? = some (get n i nx v)) (hv : v ∈ [vd, vp, vq]) (hn : nx < 2 ^ 32) : Code L retAt 0 0 (VOp.stmt L AA (.get 0 a (.const i) nx (v + 348))) (pr n) nx := by
  have h1 : ∀ v ∈ [vd, vp, vq], EpdOK (v + 348) ∧ L0.pinCellB X (v + 348) = true ∧ v + 348 ∉ V.scr := by decide +kernel
  obtain ⟨g1, g2, g3⟩ := h1 v hv
  exact VSh.get_code wf shOk (k := 1) (a := a) (idx := .const i) (by decide) hn g1 (cell g2) g3 constOk constOk (by intro v h; cases h) (bn n h)

theorem setCode {n nx : Nat} (h : own[n]? = some (set n nx)) (hn : nx < 2 ^ 32) : Code L retAt 0 0 (VOp.stmt L AA (.put 0 e (.var vq) (.const 1) nx)) (pr n) nx :=
  VSh.set_code wf shOk (k := 1) (e := e) (x := .var vq) (i := .const 1) (by decide) hn constOk (varOk (n := 6) (by decide)) constOk
    (by intro v h; cases h) (by intro v h h2; cases h2) (by rintro ⟨a, b, c, h, h2, h3⟩; cases h2) (bn n h)

theorem putCode {n v m : Nat} (h : own[n]? = some (put n v)) (hv : v = exVar m) (hm : m < 2) (hn : pr (n + 1) < 2 ^ 32) :
    Code L retAt 0 0 (ArrOp.stmt L BB (.put 0 0xE050000 ti false .set (.var vd) (.var vp) (.var v))) (pr n) (pr (n + 1)) := by
  have h0 : ∀ m < 2, vd ≠ exVar m ∧ vp ≠ exVar m ∧ exVar m < 2 ^ 32 ∧ EpdOK (exVar m + 344) ∧ (false || (Src.var vd).same (.var vp) || (Src.var vd).same (.var (exVar m)) || (Src.var vp).same (.var (exVar m))) = false := by decide +kernel
  obtain ⟨g1, g2, g3, g4, g5⟩ := h0 m hm
  subst hv
  simp only [ArrOp.stmt, iset]
  rw [if_neg (by rw [g5]; simp)]
  exact isetVV_code wf (vm (n := 4) (by decide)) (vm (n := 5) (by decide)) (vm (by omega)) (by decide) g1 g2 (by decide) g3 hn g4 (bn n h)

theorem cN : Code L retAt 0 0 (opN.stmt L AA BB S) (pr 0) (pr 2) :=
  .seq (.trig trivial ⟨aMem_static _ _ _, trivial⟩ (bn 0 rfl)) (.seq (.trig trivial ⟨aMem_static _ _ _, trivial⟩ (bn 1 rfl)) .skip)

theorem cX : Code L retAt 0 0 (opX.stmt L AA BB S) (pr 2) (pr 7) :=
  .seq (getCode rfl (by simp) (by decide)) (.seq (getCode (n := 3) rfl (by simp) (by decide)) (.seq (putCode (n := 4) (m := 0) rfl rfl (by decide) (by decide))
    (.seq (getCode (n := 5) rfl (by simp) (by decide +kernel)) (.seq (asgCode (r := r1) rfl (by decide +kernel) (by simp [seqs])) (.seq (setCode (n := 6) rfl (by decide)) .skip)))))

theorem cY : Code L retAt 0 0 (opY.stmt L AA BB S) (pr 7) (pr 12) :=
  .seq (getCode rfl (by simp) (by decide)) (.seq (getCode (n := 8) rfl (by simp) (by decide)) (.seq (putCode (n := 9) (m := 1) rfl rfl (by decide) (by decide))
    (.seq (getCode (n := 10) rfl (by simp) (by decide +kernel)) (.seq (asgCode (r := r2) rfl (by decide +kernel) (by simp [seqs])) (.seq (setCode (n := 11) rfl (by decide)) .skip)))))

theorem cP : Code L retAt 0 0 (opP.stmt L AA BB S) (pr 12) (pr 16) :=
  .seq (getCode rfl (by simp) (by decide +kernel)) (.seq (asgCode (r := r3) rfl (by decide +kernel) (by simp [seqs])) (.seq (setCode (n := 13) rfl (by decide))
    (.seq (getCode (n := 14) rfl (by simp) (by decide)) (.seq (getCode (n := 15) rfl (by simp) (by decide +kernel)) (.seq
      (.seq (asgCode (r := r4) rfl (by decide +kernel) (by simp [seqs])) (C32_epd_code wf tab reader1 rdok (by decide) (asgCode (r := r5) rfl (by decide +kernel) (by simp [seqs])))) .skip)))))

theorem inE : E.Into L := ⟨fun _ h => List.mem_append_right _ h, sq (.head _), fun _ h => List.mem_append_left _ h⟩

theorem cE : Code L retAt 0 0 (opE.stmt L AA BB S) (pr 16) haltAt :=
  .seq (getCode rfl (by simp) (by decide +kernel)) (.seq (emitD_code (r := retAt) (S := fun _ _ _ _ _ _ => none) (f := fun _ => .skip) (es := .base iteE) (by intro j b k x n m E h; cases h) (by decide +kernel) inE) .skip)

theorem code : Code L retAt 0 0 (.seqs (ops.map (SOp.stmt L AA BB S))) (pr 0) haltAt := .seq cN (.seq cX (.seq cY (.seq cP (.seq cE .skip))))

theorem run (xv yv : W) : ∃ m', Reaches ⟨mem (vs xv yv), pr 0⟩ ⟨m', haltAt⟩ ∧ m' (o + 348) = yv ∧ m' (z + 348) = 0 := by
  have hl := laid xv yv
  have hvw : ∀ y, L0.pinCellB X y = true → L.view (mem (vs xv yv)) y = mem (vs xv yv) y := fun y h => Layout.view_at (cell h).2
  have vv : ∀ n : Nat, (h : n < 9) → L.view (mem (vs xv yv)) (exVar n + 348) = (vs xv yv)[n]'h := by
    intro n h
    have : ∀ n < 9, L0.pinCellB X (exVar n + 348) = true := by decide +kernel
    rw [hvw _ (this n h)]
    exact (hl.ok _).2 n h
  have fr : ∀ y, L0.pinCellB X y = true ∧ L0.Free exBuf 9 y → L.view (mem (vs xv yv)) y = match (pinHoles X ++ holes).find? (fun r => r.1 == y) with | some r => r.2 | none => 0 := by
    intro y hy
    rw [hvw _ hy.1]
    exact hl.free hy.2 (by decide) _
  have fe : ∀ i < 2, ∀ o ∈ [4, 344, 348, 352], L0.pinCellB X (stk + 72 * i + o) = true ∧ L0.Free exBuf 9 (stk + 72 * i + o) := by decide +kernel
  have I : VArrIs AA (L.view (mem (vs xv yv))) (fun _ _ => 0, L.view (mem (vs xv yv))) := by
    refine ⟨fun k i h => ?_, fun k i h => ?_, ?_, fun _ _ => rfl⟩
    · have hv : ∀ i < 2, (match (pinHoles X ++ holes).find? (fun r => r.1 == stk + 72 * i + 348) with | some r => r.2 | none => 0) = 0 := by decide +kernel
      rw [(atE h).2.1]
      exact (fr _ (fe _ (atE h).2.2 348 (by simp))).trans (hv _ (atE h).2.2)
    · have h1 : ∀ i < 2, (match (pinHoles X ++ holes).find? (fun r => r.1 == stk + 72 * i + 4) with | some r => r.2 | none => 0) = BitVec.ofNat 32 V.g := by decide +kernel
      have h2 : ∀ i < 2, (match (pinHoles X ++ holes).find? (fun r => r.1 == stk + 72 * i + 344) with | some r => r.2 | none => 0) = epd (V.g + 348) := by decide +kernel
      have h3 : ∀ i < 2, (match (pinHoles X ++ holes).find? (fun r => r.1 == stk + 72 * i + 352) with | some r => r.2 | none => 0) = pmod .set := by decide +kernel
      have hi := (atE h).2.2
      rw [(atE h).2.1]
      exact ⟨(fr _ (fe _ hi 4 (by simp))).trans (h1 _ hi), (fr _ (fe _ hi 344 (by simp))).trans (h2 _ hi), (fr _ (fe _ hi 352 (by simp))).trans (h3 _ hi)⟩
    · rw [show AA.V.gi = V.gi from rfl, hvw _ (by decide +kernel)]
      have := (hl.hole (b := ⟨V.gi, ⟨[], V.giActs.map PA.a⟩, none, false⟩) (List.mem_append_left _ (List.mem_append_left _ (List.mem_append_left _ (.tail _ (.head _))))) (o := 348)
        (by decide) (by decide +kernel) (by decide) (pinHoles X ++ holes)).2
      exact this.trans (by decide +kernel)
  have J : ArrIs BB (L.view (mem (vs xv yv))) (fun _ _ => 0, L.view (mem (vs xv yv))) := by
    refine ⟨fun k i h => ?_, ?_, ?_, fun _ _ => rfl⟩
    · have hc : ∀ i < 2, L0.pinCellB X (arr + 4 * i) = true ∧ L0.Free exBuf 9 (arr + 4 * i) := by decide +kernel
      have hv : ∀ i < 2, (match (pinHoles X ++ holes).find? (fun r => r.1 == arr + 4 * i) with | some r => r.2 | none => 0) = 0 := by decide +kernel
      rw [(atB h).2.1]
      exact (fr _ (hc _ (atB h).2.2)).trans (hv _ (atB h).2.2)
    · rw [show BB.cpc = cpc from rfl, hvw _ (by decide +kernel)]
      exact (hl.free (show L0.Free exBuf 9 (cpc + 352) by decide +kernel) (by decide) _).trans (by decide +kernel)
    · rw [show BB.rend = rend from rfl, hvw _ (by decide +kernel)]
      have := (hl.hole (show rendBlk rend ∈ L0.P.blks from List.mem_append_left _ (List.mem_append_left _ (List.mem_append_right _ (.head _)))) (o := 348)
        (by decide) (by decide +kernel) (by decide) (pinHoles X ++ holes)).2
      exact this.trans (by decide +kernel)
  have e1 := vv 0 (by decide)
  have e2 := vv 1 (by decide)
  have hr : ∃ st, SOp.run AA BB S ops (fun _ => none, L.view (mem (vs xv yv))) = some (st, ((L.view (mem (vs xv yv))).set (o + 348) yv).set (z + 348) 0) := by
    generalize L.view (mem (vs xv yv)) = s at *
    simp only [vs, List.getElem_cons_zero, List.getElem_cons_succ] at e1 e2
    have p0 : (0 : Nat) < S.n ∧ e.valM s = epd (AA.base (S.k 0)) := ⟨Nat.one_pos, rfl⟩
    have p1 : ∀ s : Mem, (0 : Nat) < S.n ∧ a.valM s = BitVec.ofNat 32 (AA.base (S.k 0)) ∧ e.valM s = epd (AA.base (S.k 0)) := fun s => ⟨Nat.one_pos, rfl, rfl⟩
    have p2 : ∀ s : Mem, (0 : Nat) < S.n ∧ a.valM s = BitVec.ofNat 32 (AA.base (S.k 0)) := fun s => ⟨Nat.one_pos, rfl⟩
    simp only [ops, SOp.run, opN, opX, opY, opP, opE, SOp.spec]
    rw [if_pos p0, Option.bind_some]
    dsimp only
    rw [if_pos (p1 _), if_pos rfl, Option.bind_some, if_pos (show _ < BB.len (S.j 0) from show _ < 2 from by simp), Option.bind_some]
    dsimp only
    rw [if_pos (p1 _), if_pos rfl, Option.bind_some, if_pos (show _ < BB.len (S.j 0) from show _ < 2 from by simp), Option.bind_some]
    dsimp only
    rw [if_pos (p1 _)]
    simp only [if_true, Option.bind_some]
    rw [if_pos (p2 _)]
    simp only [Option.bind_some, Src.valM, y, e2]
    exact ⟨_, rfl⟩
  obtain ⟨st, hr⟩ := hr
  obtain ⟨s', x1, f, g, e', h1, -, h3⟩ := C40_stack okS ops opsOk (Stks.init ⟨I, J⟩) hr
  obtain ⟨m', rr, ok', hv'⟩ := (C25_structured wf x1 code) _ (ok xv yv) rfl
  refine ⟨m', rr, ?_, ?_⟩
  · rw [← Layout.view_at (m := m') (cell (show L0.pinCellB X (o + 348) = true by decide +kernel)).2, hv', h1.a.u (o + 348) (by decide +kernel)]
    simp only [h3 (o + 348) (by decide +kernel)]
    rw [set_ne (by decide), set_eq]
  · rw [← Layout.view_at (m := m') (cell (show L0.pinCellB X (z + 348) = true by decide +kernel)).2, hv', h1.a.u (z + 348) (by decide +kernel)]
    simp only [h3 (z + 348) (by decide +kernel)]
    rw [set_eq]

end ExStack

end Eud.SC
