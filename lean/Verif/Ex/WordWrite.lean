import Verif.Ex.DwBreak
import Verif.Ex.MulDivFn
import Verif.Lib.WordWrite
/-
Example for C34: `f_wwrite_epd(e, i, w)` with three variables, in memory, with its switch, with `f_dwbreak` and with both multiplications.
-/

namespace Eud.SC

namespace ExWordWrite

def cpc : Nat := 0xE020000
/-- The parameters; `epd` is run as a trigger. -/
def ev : Nat := 0xE021000
def sv : Nat := exVar 3
def wv : Nat := exVar 4
def tbl : Nat := 0xE030000
def fend : Nat := trigAt 1
def nptr : Nat := fendPtr [] fend
def e : Nat := exVar 0
def i : Nat := exVar 1
def w : Nat := exVar 2
/-- The dword written, and the next one. -/
def d : Nat := 0xE040000
def noS : Nat → (b k x n m : Nat) → Option Emitted := fun _ _ _ _ _ _ => none
def L00 : Layout := ⟨⟨[], [], []⟩, [], []⟩

/-! `f_dwbreak` -/

def B0 (n1 : Nat) : Brk := ⟨0xE000000, fun i => 0xE001000 + 0x1000 * i, fun i => trigAt (30 + i), n1, trigAt 36⟩
def btail : ES := .seq (.base (.seqs ((B0 0).bits.map (cBitTrig ((B0 0).num + 348))))) (.seq (.base (.trig [] (pvSetup ((B0 0).rets brkMask) (B0 0).fend))) (.site 1))
def T1 : Emitted := emitD (trigAt 36) (fun _ => chS ((B0 0).rets brkMask) (trigAt 36)) btail 0 0 (trigAt 36) 40 0
def B : Brk := B0 T1.e
def bptr : Nat := fendPtr ((List.range 6).map B.fr) B.fend
def bS : Nat → (b k x n m : Nat) → Option Emitted
  | 0 => chS B.init B.n1
  | _ => chS (B.rets brkMask) B.fend
def bES : ES := .seq (.seq (.base (.trig [] B.initActs)) (.site 0)) btail
def BF : Emitted := emitD B.fend bS bES 0 0 B.fend 40 0

/-! The multiplications: parameters `exVar 5`, `exVar 6`. -/

def mB0 : Stmt := mulFn (exVar 5) (trigAt 110) (exVar 15) (2 ^ 24)
def mFe0 : Nat := trigAt 111
def mE0 : Emitted := emitD mFe0 noS (.base mB0) 0 0 mFe0 112 50
def mB1 : Stmt := mulFn (exVar 6) (trigAt 150) (exVar 15) 1
def mFe1 : Nat := trigAt 151
def mE1 : Emitted := emitD mFe1 noS (.base mB1) 0 0 mFe1 152 60
def mp0 : Nat := fendPtr [trigAt 110] mFe0
def mp1 : Nat := fendPtr [trigAt 150] mFe1

/-! The cases. -/

def swEnd : Nat := trigAt 2
def p : Nat → Nat
  | 0 => trigAt 20 + 328
  | 1 => trigAt 21 + 328
  | _ => trigAt 23 + 328
/-- What follows the shift. -/
def rest (j : Nat) : Stmt := .seq (.asg [⟨p j + 20, .set, .var wv⟩]) (.seq (.trig [] [aCpV .set (byteMask 2 j) (p j)]) .brk)
def sh : Nat → Stmt
  | 0 => .skip
  | 1 => shlHere wv 8
  | _ => shlHere wv 16
def C0 : Emitted := emitD fend noS (.base (.seq .skip (rest 0))) swEnd 0 0 20 70
def C1 : Emitted := emitD fend noS (.base (.seq (shlHere wv 8) (rest 1))) swEnd 0 0 21 75
def C2 : Emitted := emitD fend noS (.base (.seq (shlHere wv 16) (rest 2))) swEnd 0 0 23 80

def p1 : Nat := trigAt 25 + 360
def p0 : Nat := trigAt 26 + 328
def b0 : Nat := exVar 7
def b1 : Nat := exVar 8
def t0 : Nat := exVar 9
def t1 : Nat := exVar 10
/-- Words 0 and 1 and bytes 2 and 3 are not used. -/
def o : Nat → Nat
  | 0 => exVar 11 + 348
  | 1 => exVar 12 + 348
  | 2 => b0 + 348
  | 3 => b1 + 348
  | 4 => exVar 13 + 348
  | _ => exVar 14 + 348
def r6 : ES := .seq (.base (.asg [⟨p1 + 20, .set, .var t1⟩])) (.base (.seq (.trig [] [aMem cpAddr .add 1, aCpV .set (byteMask 1 0) p1, aMem cpAddr .add (-1)]) .brk))
def R6 : Emitted := emitD fend noS r6 swEnd 0 0 25 85
def m1S : Site := ⟨mE1.e, mFe1, mp1, R6.e, mB1, [(trigAt 150, t1 + 348)], [(exVar 6 + 348, .var b1)]⟩
def s1 : Nat → (b k x n m : Nat) → Option Emitted := fun _ => callS m1S
def r3 : ES := .seq (.base (.asg [⟨p0 + 20, .set, .var t0⟩])) (.seq (.base (.trig [] [aCpV .set (byteMask 1 3) p0])) (.seq (.site 2) r6))
def R3 : Emitted := emitD fend s1 r3 swEnd 0 0 25 85
def m0S : Site := ⟨mE0.e, mFe0, mp0, R3.e, mB0, [(trigAt 110, t0 + 348)], [(exVar 5 + 348, .var b0)]⟩
def s2 : Nat → (b k x n m : Nat) → Option Emitted
  | 2 => callS m1S
  | _ => callS m0S
def R2 : Emitted := emitD fend s2 (.seq (.site 1) r3) swEnd 0 0 25 85
def brS (L : Layout) : Site := ⟨BF.e, B.fend, bptr, R2.e, B.body L, B.outs o, [(B.num + 348, .var wv)]⟩
def s3 : Nat → (b k x n m : Nat) → Option Emitted
  | 0 => callS (brS L00)
  | 1 => callS m0S
  | _ => callS m1S
def r0 : ES := .seq (.site 0) (.seq (.site 1) r3)
def C3 : Emitted := emitD fend s3 r0 swEnd 0 0 25 85

/-! The function. -/

def cases (L : Layout) : Nat → Stmt := wwCases sh (fun _ => wv) p (wwCase3 ((brS L).stmt L) (m0S.stmt L) (m1S.stmt L) t0 t1 p0 p1)
def fBody (L : Layout) : Stmt := wrBody L ev sv cpc (trigAt 10) fend (cases0 4 (cases L)) .skip
def swS (_b _k x n m : Nat) : Option Emitted := if x = swEnd then some ⟨trigAt 10, n, m, [], [], []⟩ else none
def fSt : Nat → (b k x n m : Nat) → Option Emitted
  | 0 => vpS ev (trigAt 10) [aMem (ev + 344) .set (epd cpAddr)]
  | 1 => swS
  | _ => vpS cpc fend [aMem (cpc + 344) .set (epd cpAddr)]
def fES : ES := .seq (.site 0) (.seq (.site 1) (.seq (.site 2) (.base .skip)))
def F : Emitted := emitD fend fSt fES 0 0 fend 2 0

def c (L : Layout) : Site := ⟨F.e, fend, nptr, haltAt, fBody L, [], [(ev + 348, .var e), (sv + 348, .var i), (wv + 348, .var w)]⟩
def M : Emitted := emitD retAt (fun _ => callS (c L00)) (.site 0) 0 0 haltAt 160 110

/-! Memory. -/

def swBlks : List SBlk := sw4Blks (sv + 348) (trigAt 10) (trigAt 11) (trigAt 12) (trigAt 13) (trigAt 14) tbl swEnd
def tab : List (Nat × Nat) := sw4Tab tbl C0.e C1.e C2.e C3.e
def parts : List (List SBlk) := [fendBlks [] fend, F.blks, swBlks, C0.blks, C1.blks, C2.blks, C3.blks, fendBlks ((List.range 6).map B.fr) B.fend, BF.blks, fendBlks [trigAt 110] mFe0, mE0.blks,
  fendBlks [trigAt 150] mFe1, mE1.blks]
def sparts : List (List Blk) := [F.seqs, BF.seqs, mE0.seqs, mE1.seqs, C0.seqs, C1.seqs, C2.seqs, C3.seqs, M.seqs]
def L0 : Layout := ⟨⟨parts.flatten, sparts.flatten, (List.range 16).map exVar⟩, [(trigAt 10, swEnd)], []⟩
def X : List (Nat × Nat) := pvPins B.num ++ (List.range 6).flatMap (fun i => pvPins (B.v i) (brkMask i)) ++ pvPins cpc ++ pvPins ev ++ tab
def L : Layout := (L0.pin X).hide (trigAt 14 + 4)

/-- The variable `i` holds `y`, `w` holds `z`; the dwords at `d` are `x` and `x2`. -/
def vs (y z : W) : List W := epd d :: y :: z :: List.replicate 13 0
def holes0 : List (Nat × W) := [(cpc + 348, 5), (cpc + 352, pmod .set), (ev + 352, pmod .set)] ++ [B.num, B.v 0, B.v 1, B.v 2, B.v 3, B.v 4, B.v 5].map fun v => (v + 352, pmod .set)
def holes (x x2 : W) : List (Nat × W) := holes0 ++ [(d, x), (d + 4, x2)]
def mem (x x2 y z : W) : Mem := L0.mem exBuf (vs y z) (pinHoles X ++ holes x x2)

theorem laid (y z : W) : L0.Laid exBuf (vs y z) := Layout.laidB_spec (show L0.laidB exBuf 16 = true by decide +kernel)
theorem pins : L0.pinB exBuf 16 X = true := by decide +kernel
theorem laid0 : L0.Laid exBuf (vs 0 0) := laid 0 0
theorem wf : L.Wf := (laid0.pinWf pins).hide (Layout.freeB_spec (by decide +kernel))
theorem ok (x x2 y z : W) : L.Ok (mem x x2 y z) := by
  have h := (laid y z).pinOk pins (holes x x2)
  exact ⟨h.prog, h.mask, h.rest⟩
def PV : List (Nat × Nat) := (B.num, 0xFFFFFFFF) :: (cpc, 0xFFFFFFFF) :: (ev, 0xFFFFFFFF) :: (List.range 6).map (fun i => (B.v i, brkMask i))
theorem pv {v M : Nat} (h : (v, M) ∈ PV) : PVar L v M := by
  have h1 : ∀ q ∈ PV, (∀ r ∈ pvPins q.1 q.2, r ∈ X) ∧ (∀ o ∈ [4, 344, 348, 352], L0.Free exBuf 16 (q.1 + o) ∧ ∀ r ∈ X, q.1 + o ≠ r.1 + 4) ∧
    trigAt 14 + 4 ∉ [q.1 + 4, q.1 + 344, q.1 + 348, q.1 + 352] := by decide +kernel
  exact (PVar.pin laid0 (h1 _ h).1 (h1 _ h).2.1).hide (h1 _ h).2.2
def cellQ (x : Nat) : Bool := L0.pinCellB X x && x != trigAt 14 + 4
theorem cell {x : Nat} (h : cellQ x = true) : L.cell x := by
  simp only [cellQ, Bool.and_eq_true, bne_iff_ne, ne_eq] at h
  have hc := laid0.pinCellB h.1
  exact ⟨hc.1, by rw [L, Layout.hide_priv]; exact fun e => e.elim h.2 hc.2⟩
theorem vars : ∀ v ∈ (List.range 16).map exVar, v ∈ L.P.vars := fun _ h => h
theorem bp {l : List SBlk} (k : Nat) (h : parts[k]? = some l) : ∀ b ∈ l, b ∈ L.P.blks := fun _ hb => List.mem_flatten.2 ⟨l, List.mem_of_getElem? h, hb⟩
theorem sp {l : List Blk} (k : Nat) (h : sparts[k]? = some l) : ∀ b ∈ l, b ∈ L.P.seqs := fun _ hb => List.mem_flatten.2 ⟨l, List.mem_of_getElem? h, hb⟩
theorem into {E : Emitted} (i j : Nat) (h1 : parts[i]? = some E.blks) (h2 : sparts[j]? = some E.seqs) (h3 : E.rest = []) : E.Into L := ⟨bp i h1, sp j h2, by rw [h3]; simp⟩

/-! Code. -/

theorem bok : B.Ok L brkMask := by
  refine ⟨pv (by simp [PV]), ?_, ?_, by decide +kernel⟩
  · intro t ht
    obtain ⟨i, hi, rfl⟩ := List.mem_map.1 ht
    exact pv (by simp only [PV, List.mem_cons, List.mem_map]; exact Or.inr (Or.inr (Or.inr ⟨i, hi, rfl⟩)))
  · have h : ∀ i < 6, cellQ (B.fr i + 348) = true ∧ EpdOK (B.fr i + 348) ∧ EpdOK (B.v i + 348) := by decide +kernel
    exact fun i hi => ⟨cell (h i hi).1, (h i hi).2⟩

def bf : Nat → Stmt
  | 0 => pvChain L B.init B.n1
  | _ => pvChain L (B.rets brkMask) B.fend

theorem fB : FuncCode L BF.e B.fend bptr ((B.outs o).map Prod.fst) (B.body L) := by
  have hi : BF.Into L := into 8 1 rfl rfl (by decide +kernel)
  have c4 : ∀ v ∈ (List.range 6).map B.fr, cellQ (v + 4) = true ∧ v < 2 ^ 32 := by decide +kernel
  refine ⟨⟨0, 0, emitD_code (S := bS) (f := bf) (es := bES) ?_ (by decide +kernel) hi⟩, fendBlks_end (bp 7 rfl) (cell (by decide +kernel)) (fun v hv => ⟨cell (c4 v hv).1, (c4 v hv).2⟩) (by decide +kernel)⟩
  intro j b k x n m E h hi
  have l1 : ∀ t ∈ B.init, (t.v, t.M) ∈ PV ∧ t.v < 2 ^ 32 := by decide +kernel
  have l2 : ∀ t ∈ B.rets brkMask, (t.v, t.M) ∈ PV ∧ t.v < 2 ^ 32 := by decide +kernel
  match j with
  | 0 => exact chS_code wf (by decide +kernel) (fun t ht => ⟨pv (l1 t ht).1, (l1 t ht).2⟩) h
  | _ + 1 => exact chS_code wf (by decide +kernel) (fun t ht => ⟨pv (l2 t ht).1, (l2 t ht).2⟩) h

/-- A function without calls in it. -/
theorem fn {B : Stmt} {fe n m : Nat} {rs : List Nat} (h : (emitG fe noS (.base B) 0 0 fe n m).isSome = true) (hi : (emitD fe noS (.base B) 0 0 fe n m).Into L)
    (hb : ∀ b ∈ fendBlks rs fe, b ∈ L.P.blks) (hc : cellQ (fendPtr rs fe) = true) (hv : ∀ v ∈ rs, cellQ (v + 4) = true ∧ v < 2 ^ 32) (hl : rs.Nodup) :
    FuncCode L (emitD fe noS (.base B) 0 0 fe n m).e fe (fendPtr rs fe) rs B :=
  ⟨⟨0, 0, emitD_code (S := noS) (f := fun _ => .skip) (es := .base B) (fun j b k x n m E h => by simp [noS] at h) h hi⟩,
    fendBlks_end hb (cell hc) (fun v hv' => ⟨cell (hv v hv').1, (hv v hv').2⟩) hl⟩

theorem m0C : FuncCode L mE0.e mFe0 mp0 [trigAt 110] mB0 := fn (by decide +kernel) (into 10 2 rfl rfl (by decide +kernel)) (bp 9 rfl) (by decide +kernel) (by decide +kernel) (by decide)
theorem m1C : FuncCode L mE1.e mFe1 mp1 [trigAt 150] mB1 := fn (by decide +kernel) (into 12 3 rfl rfl (by decide +kernel)) (bp 11 rfl) (by decide +kernel) (by decide +kernel) (by decide)

def cF : Nat → Stmt
  | 0 => (brS L).stmt L
  | 1 => m0S.stmt L
  | _ => m1S.stmt L
theorem e30 : s3 0 = callS (brS L00) := rfl
theorem e31 : s3 1 = callS m0S := rfl
theorem e32 (j : Nat) : s3 (j + 2) = callS m1S := rfl
theorem f30 : cF 0 = (brS L).stmt L := rfl
theorem f31 : cF 1 = m0S.stmt L := rfl
theorem f32 (j : Nat) : cF (j + 2) = m1S.stmt L := rfl
theorem csb : callS (brS L) = callS (brS L00) := callS_body _ _ _ _ _ _ _ _

theorem k0 {r b k x n m : Nat} {E : Emitted} (h : callS (brS L00) b k x n m = some E) (hi : E.Into L) : Code L r b k ((brS L).stmt L) E.e x :=
  callS_code (c := brS L) wf fB (by decide +kernel) (by rw [csb]; exact h) hi
theorem k1 {r b k x n m : Nat} {E : Emitted} (h : callS m0S b k x n m = some E) (hi : E.Into L) : Code L r b k (m0S.stmt L) E.e x :=
  callS_code (c := m0S) wf m0C (by decide +kernel) h hi
theorem k2 {r b k x n m : Nat} {E : Emitted} (h : callS m1S b k x n m = some E) (hi : E.Into L) : Code L r b k (m1S.stmt L) E.e x :=
  callS_code (c := m1S) wf m1C (by decide +kernel) h hi

theorem c3Code : Code L fend swEnd 0 (r0.stmt cF) C3.e 0 := by
  refine emitD_code (S := s3) (f := cF) (es := r0) ?_ (by decide +kernel) (into 6 7 rfl rfl (by decide +kernel))
  intro j b k x n m E h hi
  match j with
  | 0 => rw [e30] at h; rw [f30]; exact k0 h hi
  | 1 => rw [e31] at h; rw [f31]; exact k1 h hi
  | j + 2 => rw [e32] at h; rw [f32]; exact k2 h hi

theorem cCode {B : Stmt} {n m : Nat} (h : (emitG fend noS (.base B) swEnd 0 0 n m).isSome = true) (hi : (emitD fend noS (.base B) swEnd 0 0 n m).Into L) :
    Code L fend swEnd 0 B (emitD fend noS (.base B) swEnd 0 0 n m).e 0 :=
  emitD_code (S := noS) (f := fun _ => .skip) (es := .base B) (fun j b k x n m E h => by simp [noS] at h) h hi

theorem swCode {b k : Nat} : Code L fend b k (.prim (SwRel L (fun s => s (sv + 348)) (cases0 4 (cases L)))) (trigAt 10) swEnd := by
  refine sw_code wf (val := fun s => s (sv + 348)) (cases := [(0, C0.e, cases L 0), (1, C1.e, cases L 1), (2, C2.e, cases L 2), (3, C3.e, cases L 3)]) ?_ ?_
  · exact sw4_runs wf (cell (by decide +kernel)) (bp 2 rfl) (by simp [L, Layout.hide, Layout.pin, L0])
      (fun r h => by simp only [L, Layout.hide, Layout.pin, X, List.mem_append]; exact Or.inr (Or.inr h)) (by decide) (by decide) (by simp [L, Layout.hide])
      (laid0.cellB (x := trigAt 14 + 4) (by decide +kernel)).1 (by decide) (by decide +kernel)
  · intro c hc
    simp only [List.mem_cons, List.not_mem_nil, or_false] at hc
    rcases hc with rfl | rfl | rfl | rfl
    · exact ⟨0, fend, 0, cCode (by decide +kernel) (into 3 4 rfl rfl (by decide +kernel))⟩
    · exact ⟨0, fend, 0, cCode (by decide +kernel) (into 4 5 rfl rfl (by decide +kernel))⟩
    · exact ⟨0, fend, 0, cCode (by decide +kernel) (into 5 6 rfl rfl (by decide +kernel))⟩
    · exact ⟨0, fend, 0, c3Code⟩

def fS : Nat → Stmt
  | 0 => vproc L ev 0xFFFFFFFF (trigAt 10) [aMem (ev + 344) .set (epd cpAddr)]
  | 1 => .prim (SwRel L (fun s => s (sv + 348)) (cases0 4 (cases L)))
  | _ => cpBack L cpc fend

theorem fCode : FuncCode L F.e fend nptr [] (fBody L) := by
  refine ⟨⟨0, 0, emitD_code (S := fSt) (f := fS) (es := fES) ?_ (by decide +kernel) (into 1 0 rfl rfl (by decide +kernel))⟩,
    fendBlks_end (bp 0 rfl) (cell (by decide +kernel)) (by simp) (by simp)⟩
  intro j b k x n m E h hi
  match j with
  | 0 => exact vpS_code wf (pv (by simp [PV])) h hi
  | 1 =>
    simp only [fSt, swS] at h
    split at h
    · rename_i hx
      cases h
      rw [hx]
      exact swCode
    · cases h
  | _ + 2 => exact vpS_code wf (pv (by simp [PV])) h hi

theorem cs : callS (c L) = callS (c L00) := callS_body _ _ _ _ _ _ _ _
theorem code : Code L retAt 0 0 ((c L).stmt L) M.e haltAt :=
  emitD_code (S := fun _ => callS (c L00)) (f := fun _ => (c L).stmt L) (es := .site 0) (fun j b k x n m E h hi => callS_code (c := c L) wf fCode (by decide +kernel) (by rw [cs]; exact h) hi) (by decide +kernel)
    ⟨by rw [show (emitD retAt (fun _ => callS (c L00)) (.site 0) 0 0 haltAt 160 110).blks = [] by decide +kernel]; simp, sp 8 rfl,
     by rw [show (emitD retAt (fun _ => callS (c L00)) (.site 0) 0 0 haltAt 160 110).rest = [] by decide +kernel]; simp⟩

/-! The result. -/

def sc0 : List Nat := callOnly mp0 [(trigAt 110, t0 + 348)] [(exVar 5 + 348, .var b0)] [trigAt 110 + 348, exVar 15 + 348]
def sc1 : List Nat := callOnly mp1 [(trigAt 150, t1 + 348)] [(exVar 6 + 348, .var b1)] [trigAt 150 + 348, exVar 15 + 348]
def scr : List Nat := [wv + 348, p 0 + 20, p 1 + 20, p 2 + 20, p0 + 20, p1 + 20] ++ sc0 ++ sc1 ++ callOnly bptr (B.outs o) [(B.num + 348, .var wv)] B.own

theorem keep {l : List Nat} (h : ∀ y ∈ B.kept, y ∉ l) (s s' : Mem) (ho : Only l s s') (hi : B.Inv s) : B.Inv s' := hi.only fun y hy => ho y (h y hy)

theorem shifts (j : Nat) (hj : j < 3) : ShlTo L B.Inv (sh j) wv (8 * j) wv scr ∧ wv ∈ L.P.vars ∧ L.cell (p j + 20) ∧ p j + 20 ∈ scr ∧ wv + 348 ∈ scr := by
  have hc : ∀ j < 3, cellQ (p j + 20) = true ∧ p j + 20 ∈ scr := by decide +kernel
  have hk : ∀ s s', Only [wv + 348] s s' → B.Inv s → B.Inv s' := fun s s' => keep (by decide +kernel) s s'
  have cw : L.cell (wv + 348) := cell (by decide +kernel)
  refine ⟨?_, vars _ (by decide), cell (hc j hj).1, (hc j hj).2, by simp [scr]⟩
  have hj' : j = 0 ∨ j = 1 ∨ j = 2 := by omega
  rcases hj' with rfl | rfl | rfl
  · exact (ShlTo.zero wv).mono (by simp)
  · exact (ShlTo.here cw (by omega) hk).mono (by simp)
  · exact (ShlTo.here cw (by omega) hk).mono (by simp)

theorem mul0 : ShlTo L B.Inv (m0S.stmt L) b0 24 t0 sc0 :=
  ShlTo.ofComp (n := 2 ^ 24) (Comp.toI (fn1_call (f := fun x => x * BitVec.ofNat 32 (2 ^ 24)) (sa := .var b0) wf (callOkB_spec (cell := cellQ) (fun x h => cell h) vars (by decide +kernel)) m0C (by decide +kernel)
    (mulFn_wp wf (cell (by decide +kernel)) (fun h => absurd h (by decide)) (fun h => absurd h (by decide)) (cell (by decide +kernel)) (by decide) (by decide))) fun s s' => keep (by decide +kernel) s s') rfl
theorem mul1 : ShlTo L B.Inv (m1S.stmt L) b1 0 t1 sc1 :=
  ShlTo.ofComp (n := 1) (Comp.toI (fn1_call (f := fun x => x * BitVec.ofNat 32 1) (sa := .var b1) wf (callOkB_spec (cell := cellQ) (fun x h => cell h) vars (by decide +kernel)) m1C (by decide +kernel)
    (mulFn_wp wf (cell (by decide +kernel)) (fun _ => vars _ (by decide)) (fun h => absurd h (by decide)) (cell (by decide +kernel)) (by decide) (by decide))) fun s s' => keep (by decide +kernel) s s') rfl

theorem BrkTo.mono {L : Layout} {I : Mem → Prop} {st : Stmt} {v b0 b1 : Nat} {scr scr' : List Nat} (h : BrkTo L I st v b0 b1 scr) (hs : ∀ x ∈ scr, x ∈ scr') : BrkTo L I st v b0 b1 scr' :=
  fun s hi => Does.mono (h s hi) fun _ e => ⟨e.1, e.2.1, e.2.2.1, e.2.2.2.mono hs⟩

theorem ww3 : Ww3 L B.Inv ((brS L).stmt L) (m0S.stmt L) (m1S.stmt L) wv b0 b1 t0 t1 p0 p1 scr where
  hbr := BrkTo.mono (BrkTo.call wf bok (callOkB_spec (cell := cellQ) (fun x h => cell h) vars (by decide +kernel)) fB (by decide +kernel) (by decide +kernel) (by decide +kernel) rfl rfl)
    fun x hx => List.mem_append_right _ hx
  hm0 := ⟨sc0, mul0, fun y hy => by simp only [scr, List.mem_append]; exact .inl (.inl (.inr hy)), by decide +kernel⟩
  hm1 := mul1.mono fun y hy => by simp only [scr, List.mem_append]; exact .inl (.inr hy)
  ht0 := vars _ (by decide)
  ht1 := vars _ (by decide)
  hp0 := cell (by decide +kernel)
  hp1 := cell (by decide +kernel)
  sub := by decide +kernel

theorem ed : epdAddr (epd d) = d := by decide +kernel
theorem ed2 : epdAddr (epd d + 1) = d + 4 := by decide +kernel

set_option linter.constructorNameAsVariable false in
/-- For every pair of dwords, every offset and every value. -/
theorem run (x x2 y z : W) : ∃ m', Reaches ⟨mem x x2 y z, M.e⟩ ⟨m', haltAt⟩ ∧
    (if y.toNat < 3 then FieldOp .set 2 y.toNat z x (m' d) ∧ m' (d + 4) = x2
      else if y.toNat = 3 then FieldOp .set 1 3 z x (m' d) ∧ FieldOp .set 1 0 (z >>> 8) x2 (m' (d + 4)) else m' d = x ∧ m' (d + 4) = x2) ∧ m' cpAddr = 5 := by
  have hl := laid y z
  have hvv : ∀ a, L.cell a → ∀ m, L.view m a = m a := fun a ha m => Layout.view_at ha.2
  have fr : ∀ z', cellQ z' = true ∧ L0.Free exBuf 16 z' → L.view (mem x x2 y z) z' = match (pinHoles X ++ holes x x2).find? (fun r => r.1 == z') with | some r => r.2 | none => 0 := by
    intro z' hz
    rw [hvv _ (cell hz.1)]
    exact hl.free hz.2 (by decide) _
  have md : ∀ v ∈ [cpc, ev, B.num, B.v 0, B.v 1, B.v 2, B.v 3, B.v 4, B.v 5], L.view (mem x x2 y z) (v + 352) = pmod .set := by
    have h : ∀ v ∈ [cpc, ev, B.num, B.v 0, B.v 1, B.v 2, B.v 3, B.v 4, B.v 5], (cellQ (v + 352) = true ∧ L0.Free exBuf 16 (v + 352)) ∧
      (pinHoles X ++ holes0).find? (fun r => r.1 == v + 352) = some (v + 352, pmod .set) := by decide +kernel
    intro v hv
    rw [fr _ (h v hv).1, show pinHoles X ++ holes x x2 = (pinHoles X ++ holes0) ++ [(d, x), (d + 4, x2)] by simp [holes], List.find?_append, (h v hv).2]
    rfl
  have c5 : L.view (mem x x2 y z) (cpc + 348) = 5 := by
    rw [fr _ (by decide +kernel), show pinHoles X ++ holes x x2 = (pinHoles X ++ holes0) ++ [(d, x), (d + 4, x2)] by simp [holes], List.find?_append,
      show (pinHoles X ++ holes0).find? (fun r => r.1 == cpc + 348) = some (cpc + 348, 5) by decide +kernel]
    rfl
  have id' : L.view (mem x x2 y z) d = x := by
    rw [fr _ (by decide +kernel), show pinHoles X ++ holes x x2 = (pinHoles X ++ holes0) ++ [(d, x), (d + 4, x2)] by simp [holes], List.find?_append,
      show (pinHoles X ++ holes0).find? (fun r => r.1 == d) = none by decide +kernel]
    rfl
  have id4 : L.view (mem x x2 y z) (d + 4) = x2 := by
    rw [fr _ (by decide +kernel), show pinHoles X ++ holes x x2 = (pinHoles X ++ holes0) ++ [(d, x), (d + 4, x2)] by simp [holes], List.find?_append,
      show (pinHoles X ++ holes0).find? (fun r => r.1 == d + 4) = none by decide +kernel]
    rfl
  have ie : L.view (mem x x2 y z) (e + 348) = epd d := by rw [hvv _ (cell (by decide +kernel))]; exact (hl.ok _).2 0 (by simp [vs])
  have ii : L.view (mem x x2 y z) (i + 348) = y := by rw [hvv _ (cell (by decide +kernel))]; exact (hl.ok _).2 1 (by simp [vs])
  have iw : L.view (mem x x2 y z) (w + 348) = z := by rw [hvv _ (cell (by decide +kernel))]; exact (hl.ok _).2 2 (by simp [vs])
  have hb : ∀ i < 6, fretBlk (B.fr i) ∈ L0.P.blks := by
    intro i hi
    exact bp 7 rfl _ (List.mem_append_left _ (List.mem_map_of_mem (List.mem_map_of_mem (List.mem_range.2 hi))))
  have iz : ∀ i, i = 0 ∨ i = 2 → L.view (mem x x2 y z) (B.fr i + 348) = 0 := by
    intro i hi
    have hd : ∀ i, i = 0 ∨ i = 2 → cellQ (B.fr i + 348) = true ∧ (pinHoles X ++ holes0).find? (fun r => r.1 == (fretBlk (B.fr i)).t + 348) = none ∧ (fretBlk (B.fr i)).t + 348 ∉ [d, d + 4] := by
      rintro i (rfl | rfl) <;> decide +kernel
    rw [hvv _ (cell (hd i hi).1)]
    have := (hl.hole (hb i (by omega)) (o := 348) (by decide) (by rcases hi with rfl | rfl <;> decide +kernel) (fun h => absurd h (by decide)) (pinHoles X ++ holes x x2)).2
    rw [show pinHoles X ++ holes x x2 = (pinHoles X ++ holes0) ++ [(d, x), (d + 4, x2)] by simp [holes], List.find?_append, (hd i hi).2.1] at this
    have hn := (hd i hi).2.2
    simp only [List.mem_cons, List.not_mem_nil, or_false, not_or] at hn
    rw [List.find?_cons_of_neg (by simpa using Ne.symm hn.1), List.find?_cons_of_neg (by simpa using Ne.symm hn.2)] at this
    exact this
  have ho := ok x x2 y z
  generalize hs : L.view (mem x x2 y z) = s at *
  have inv : B.Inv s := by
    refine ⟨md _ (by simp), fun i hi => ?_, by rw [iz 0 (by simp)]; decide, by rw [iz 2 (by simp)]; decide⟩
    have hc : i = 0 ∨ i = 1 ∨ i = 2 ∨ i = 3 ∨ i = 4 ∨ i = 5 := by omega
    rcases hc with rfl | rfl | rfl | rfl | rfl | rfl <;> exact md _ (by simp)
  have hAs : ∀ A ∈ (if y.toNat = 3 then [d, d + 4] else [d]), A ∈ [d, d + 4] := by
    intro A hA
    split at hA <;> simp at hA ⊢ <;> omega
  generalize hl' : (if y.toNat = 3 then [d, d + 4] else [d]) = As at hAs
  have hal : As = [d, d + 4] ∨ As = [d] := by rw [← hl']; split <;> simp
  have hh : WrHyp L nptr ev sv wv cpc [] (.var e) (.var i) (.var w) As scr [] s := by
    refine ⟨callOkB_spec (cell := cellQ) (fun _ => cell) vars (by rcases hal with rfl | rfl <;> decide +kernel), ⟨pv (by simp [PV]), pv (by simp [PV]), cell (by decide +kernel), by decide, by decide⟩, md _ (by simp), md _ (by simp),
      ?_, by decide +kernel, by rcases hal with rfl | rfl <;> decide +kernel, by decide, by decide, by decide⟩
    intro A hA
    have h2 : ∀ A ∈ [d, d + 4], cellQ A = true ∧ A ∉ callOnly nptr [] [(ev + 348, .var e), (sv + 348, .var i), (wv + 348, .var w)] (wrOwn ev cpc ++ scr ++ []) := by decide +kernel
    exact ⟨cell (h2 A (hAs A hA)).1, (h2 A (hAs A hA)).2⟩
  obtain ⟨s1, x1, e1, e2, -, e4⟩ := C34_word (s := s) (e := .var e) (i := .var i) (x := .var w) (back := haltAt) (As := As) wf shifts ww3
    (by simp only [Src.valM, ii, ie, ed, ed2]; exact hl'.symm) hh fCode (by decide) inv (fun s s' => keep (by rcases hal with rfl | rfl <;> decide +kernel) s s')
  simp only [Src.valM, ie, ii, iw, ed, ed2, id', id4] at e1
  obtain ⟨m', rr, -, hv'⟩ := C25_structured wf x1 code _ ho hs
  have hm : ∀ z, cellQ z = true → m' z = s1 z := fun z hz => by rw [← Layout.view_at (L := L) (m := m') (cell hz).2, hv']
  have k4 : y.toNat ≠ 3 → s1 (d + 4) = x2 := by
    intro hy
    rw [if_neg hy] at hl'
    subst hl'
    rw [e4 _ (by decide +kernel), id4]
  refine ⟨m', rr, ?_, ?_⟩
  · rw [hm d (by decide +kernel), hm (d + 4) (by decide +kernel)]
    split
    · rename_i h
      rw [if_pos h] at e1
      exact ⟨e1, k4 (by omega)⟩
    · rename_i h
      rw [if_neg h] at e1
      split
      · rename_i h3
        rw [if_pos h3] at e1
        exact e1
      · rename_i h3
        rw [if_neg h3] at e1
        exact ⟨e1, k4 h3⟩
  · rw [hm cpAddr (by decide +kernel), e2, c5]

end ExWordWrite

end Eud.SC
