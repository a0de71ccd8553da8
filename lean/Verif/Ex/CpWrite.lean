import Verif.Ex.WordWrite
import Verif.Ex.DwPtr
import Verif.Lib.CpWrite
/-
Example for C34: `f_dwwrite_cp(c, w)`, `f_dwadd_cp(0, w)` and `f_bwrite_cp(c, i, b)` with variables, in memory, with the switch and the four multiplications of `_bwriter`.
-/

namespace Eud.SC

namespace ExCpWrite

def c : Nat := exVar 0
def b : Nat := exVar 1
def i : Nat := exVar 2
def w : Nat := exVar 17
/-- The parameters, the result and the end of `_bwriter`. -/
def sv : Nat := exVar 3
def wv : Nat := exVar 4
def fr : Nat := trigAt 0
def fend : Nat := trigAt 1
def nptr : Nat := fendPtr [fr] fend
def o : Nat := exVar 5
def tbl : Nat := 0xE030000
/-- The dword at `CP + c`, and the one at `CP`. -/
def d : Nat := exVar 7 + 348
def d0 : Nat := exVar 18 + 348
def noS : Nat → (b k x n m : Nat) → Option Emitted := fun _ _ _ _ _ _ => none
def L00 : Layout := ⟨⟨[], [], []⟩, [], []⟩

/-- A variable run with player 13 as its destination. -/
def cpS (v : Nat) (md : Mod) (_b _k x n m : Nat) : Option Emitted :=
  if x < 2 ^ 32 then some ⟨trigAt n, n + 1, m, [⟨trigAt n, ⟨[], (setdwCV 13 v x md).map QA.act⟩, some v, false⟩], [], []⟩ else none

theorem cpS_code {L : Layout} (hw : L.Wf) {v : Nat} {md : Mod} (hv : v ∈ L.P.vars) {r b k x n m : Nat} {E : Emitted} (h : cpS v md b k x n m = some E) (hi : E.Into L) :
    Code L r b k (.prim (SetCpRel L md v)) E.e x := by
  unfold cpS at h
  split at h
  · rename_i hh
    cases h
    exact setCp_code hw hv hh (hi.blks _ (by simp))
  · cases h

/-! The multiplications by `256 ** j`: parameter `exVar (8 + j)`. -/

def mB (j : Nat) : Stmt := mulFn (exVar (8 + j)) (trigAt (110 + 40 * j)) (exVar 12) (256 ^ j)
def mFe (j : Nat) : Nat := trigAt (111 + 40 * j)
def mE (j : Nat) : Emitted := emitD (mFe j) noS (.base (mB j)) 0 0 (mFe j) (112 + 40 * j) (50 + 10 * j)
def mp (j : Nat) : Nat := fendPtr [trigAt (110 + 40 * j)] (mFe j)
def t (j : Nat) : Nat := exVar (13 + j)

/-! The cases. -/

def tl : Stmt := retVar fr wv
def T : Emitted := emitD fend noS (.base tl) 0 0 fend 2 0
def swEnd : Nat := T.e
def rest (j : Nat) : Emitted := emitD fend (fun _ => cpS (t j) .add) (.seq (.site 1) (.base .brk)) swEnd 0 0 (20 + 2 * j) (90 + 5 * j)
def mS (j : Nat) : Site := ⟨(mE j).e, mFe j, mp j, (rest j).e, mB j, [(trigAt (110 + 40 * j), t j + 348)], [(exVar (8 + j) + 348, .var wv)]⟩
def sC (j : Nat) : Nat → (b k x n m : Nat) → Option Emitted
  | 0 => callS (mS j)
  | _ => cpS (t j) .add
def cES (j : Nat) : ES := .seq (.base (.trig [] [aCp .set 0 (byteMask 1 j)])) (.seq (.site 0) (.seq (.site 1) (.base .brk)))
def C (j : Nat) : Emitted := emitD fend (sC j) (cES j) swEnd 0 0 (20 + 2 * j) (90 + 5 * j)

/-! The function. -/

def case (L : Layout) (j : Nat) : Stmt := cwCase L 1 ((mS j).stmt L) (t j) j
def fBody (L : Layout) : Stmt := cwBody L sv (cases0 4 (case L)) tl
def swS (_b _k x n m : Nat) : Option Emitted := if x = swEnd then some ⟨trigAt 10, n, m, [], [], []⟩ else none
def fES : ES := .seq (.site 0) (.base tl)
def F : Emitted := emitD fend (fun _ => swS) fES 0 0 fend 2 0

/-! The program. -/

def pa : Nat := trigAt 291 + 328
def pb : Nat := trigAt 290 + 328
def tn : Nat := exVar 6
def B : Emitted := emitD retAt noS (.base (cpSubV c tn pb)) 0 0 haltAt 290 130
def fS (L : Layout) : Site := ⟨F.e, fend, nptr, B.e, fBody L, [(fr, o + 348)], [(sv + 348, .var i), (wv + 348, .var b)]⟩
def bES : ES := .seq (.base (cpAddV c pa)) (.seq (.site 1) (.base (cpSubV c tn pb)))
def P : Nat := trigAt 293 + 328
def wr : Stmt := setCp (exVar 19) P (P + 32) (P + 64) .set (.var c) (.var w) (.const 0xFFFFFFFF)
def pES : ES := .seq (.base wr) (.seq (.site 0) bES)
def sP (L : Layout) : Nat → (b k x n m : Nat) → Option Emitted
  | 0 => cpS w .add
  | _ => callS (fS L)
def M : Emitted := emitD retAt (sP L00) pES 0 0 haltAt 290 130

/-! Memory. -/

def swBlks : List SBlk := sw4Blks (sv + 348) (trigAt 10) (trigAt 11) (trigAt 12) (trigAt 13) (trigAt 14) tbl swEnd
def tab : List (Nat × Nat) := sw4Tab tbl (C 0).e (C 1).e (C 2).e (C 3).e
def parts : List (List SBlk) := [fendBlks [fr] fend, F.blks, swBlks, (C 0).blks, (C 1).blks, (C 2).blks, (C 3).blks, fendBlks [trigAt 110] (mFe 0), (mE 0).blks, fendBlks [trigAt 150] (mFe 1), (mE 1).blks,
  fendBlks [trigAt 190] (mFe 2), (mE 2).blks, fendBlks [trigAt 230] (mFe 3), (mE 3).blks, M.blks]
def sparts : List (List Blk) := [F.seqs, (mE 0).seqs, (mE 1).seqs, (mE 2).seqs, (mE 3).seqs, (C 0).seqs, (C 1).seqs, (C 2).seqs, (C 3).seqs, M.seqs]
def L0 : Layout := ⟨⟨parts.flatten, sparts.flatten, (List.range 20).map exVar⟩, [(trigAt 10, swEnd)], []⟩
def L : Layout := (L0.pin tab).hide (trigAt 14 + 4)

/-- The variable `b` holds `x`, `i` holds `y`, `w` holds `z`; the dwords are `x0` and `x1`. -/
def vs (x0 x1 x y z : W) : List W := [epd d - epd d0, x, y, 0, 0, 0, 0, x1, 0, 0, 0, 0, 0, 0, 0, 0, 0, z, x0, 0]
def holes : List (Nat × W) := [(cpAddr, epd d0)]
def mem (x0 x1 x y z : W) : Mem := L0.mem exBuf (vs x0 x1 x y z) (pinHoles tab ++ holes)

theorem laid (x0 x1 x y z : W) : L0.Laid exBuf (vs x0 x1 x y z) := Layout.laidB_spec (show L0.laidB exBuf 20 = true by decide +kernel)
theorem pins : L0.pinB exBuf 20 tab = true := by decide +kernel
theorem laid0 : L0.Laid exBuf (vs 0 0 0 0 0) := laid 0 0 0 0 0
theorem wf : L.Wf := (laid0.pinWf pins).hide (Layout.freeB_spec (by decide +kernel))
theorem ok (x0 x1 x y z : W) : L.Ok (mem x0 x1 x y z) := by
  have h := (laid x0 x1 x y z).pinOk pins holes
  exact ⟨h.prog, h.mask, h.rest⟩
def cellQ (x : Nat) : Bool := L0.pinCellB tab x && x != trigAt 14 + 4
theorem cell {x : Nat} (h : cellQ x = true) : L.cell x := by
  simp only [cellQ, Bool.and_eq_true, bne_iff_ne, ne_eq] at h
  have hc := laid0.pinCellB h.1
  exact ⟨hc.1, by rw [L, Layout.hide_priv]; exact fun e => e.elim h.2 hc.2⟩
theorem vars : ∀ v ∈ (List.range 20).map exVar, v ∈ L.P.vars := fun _ h => h
theorem bp {l : List SBlk} (k : Nat) (h : parts[k]? = some l) : ∀ b ∈ l, b ∈ L.P.blks := fun _ hb => List.mem_flatten.2 ⟨l, List.mem_of_getElem? h, hb⟩
theorem sp {l : List Blk} (k : Nat) (h : sparts[k]? = some l) : ∀ b ∈ l, b ∈ L.P.seqs := fun _ hb => List.mem_flatten.2 ⟨l, List.mem_of_getElem? h, hb⟩
theorem into {E : Emitted} (i j : Nat) (h1 : parts[i]? = some E.blks) (h2 : sparts[j]? = some E.seqs) (h3 : E.rest = []) : E.Into L := ⟨bp i h1, sp j h2, by rw [h3]; simp⟩

/-! Code. -/

/-- A function without calls in it. -/
theorem fn {B : Stmt} {fe n m : Nat} {rs : List Nat} (h : (emitG fe noS (.base B) 0 0 fe n m).isSome = true) (hi : (emitD fe noS (.base B) 0 0 fe n m).Into L)
    (hb : ∀ b ∈ fendBlks rs fe, b ∈ L.P.blks) (hc : cellQ (fendPtr rs fe) = true) (hv : ∀ v ∈ rs, cellQ (v + 4) = true ∧ v < 2 ^ 32) (hl : rs.Nodup) :
    FuncCode L (emitD fe noS (.base B) 0 0 fe n m).e fe (fendPtr rs fe) rs B :=
  ⟨⟨0, 0, emitD_code (S := noS) (f := fun _ => .skip) (es := .base B) (fun j b k x n m E h => by simp [noS] at h) h hi⟩,
    fendBlks_end hb (cell hc) (fun v hv' => ⟨cell (hv v hv').1, (hv v hv').2⟩) hl⟩

theorem lt4 {j : Nat} (h : j < 4) : j = 0 ∨ j = 1 ∨ j = 2 ∨ j = 3 := by omega

theorem mC {j : Nat} (h : j < 4) : FuncCode L (mE j).e (mFe j) (mp j) [trigAt (110 + 40 * j)] (mB j) := by
  rcases lt4 h with rfl | rfl | rfl | rfl
  · exact fn (by decide +kernel) (into 8 1 rfl rfl (by decide +kernel)) (bp 7 rfl) (by decide +kernel) (by decide +kernel) (by decide)
  · exact fn (by decide +kernel) (into 10 2 rfl rfl (by decide +kernel)) (bp 9 rfl) (by decide +kernel) (by decide +kernel) (by decide)
  · exact fn (by decide +kernel) (into 12 3 rfl rfl (by decide +kernel)) (bp 11 rfl) (by decide +kernel) (by decide +kernel) (by decide)
  · exact fn (by decide +kernel) (into 14 4 rfl rfl (by decide +kernel)) (bp 13 rfl) (by decide +kernel) (by decide +kernel) (by decide)

def cF (j : Nat) : Nat → Stmt
  | 0 => (mS j).stmt L
  | _ => .prim (SetCpRel L .add (t j))
theorem s0 (j : Nat) : sC j 0 = callS (mS j) := rfl
theorem s1 (j l : Nat) : sC j (l + 1) = cpS (t j) .add := rfl
theorem f0 (j : Nat) : cF j 0 = (mS j).stmt L := rfl
theorem f1 (j l : Nat) : cF j (l + 1) = .prim (SetCpRel L .add (t j)) := rfl
theorem tv {j : Nat} (h : j < 4) : t j ∈ L.P.vars := vars _ ((by decide : ∀ j < 4, t j ∈ (List.range 20).map exVar) j h)
theorem nrs {j : Nat} (h : j < 4) : ∀ r ∈ (mS j).rs, r.1 + 4 ≠ (mS j).nptr := (by decide +kernel : ∀ j < 4, ∀ r ∈ (mS j).rs, r.1 + 4 ≠ (mS j).nptr) j h

theorem cSite {j : Nat} (hj : j < 4) : ∀ (l b k x n m : Nat) (E : Emitted), sC j l b k x n m = some E → E.Into L → Code L fend b k (cF j l) E.e x := by
  intro l b k x n m E h hi
  match l with
  | 0 => rw [s0] at h; rw [f0]; exact callS_code (c := mS j) wf (mC hj) (nrs hj) h hi
  | l + 1 => rw [s1] at h; rw [f1]; exact cpS_code wf (tv hj) h hi

theorem cCode (j : Nat) (hj : j < 4) : Code L fend swEnd 0 (case L j) (C j).e 0 := by
  have h1 : ∀ j < 4, (emitG fend (sC j) (cES j) swEnd 0 0 (20 + 2 * j) (90 + 5 * j)).isSome = true ∧ (C j).rest = [] := by decide +kernel
  refine emitD_code (S := sC j) (f := cF j) (es := cES j) (cSite hj) (h1 j hj).1 ?_
  rcases lt4 hj with rfl | rfl | rfl | rfl
  · exact into 3 5 rfl rfl (h1 0 hj).2
  · exact into 4 6 rfl rfl (h1 1 hj).2
  · exact into 5 7 rfl rfl (h1 2 hj).2
  · exact into 6 8 rfl rfl (h1 3 hj).2

theorem tabIn : ∀ r ∈ sw4Tab tbl (C 0).e (C 1).e (C 2).e (C 3).e, r ∈ L.rest := by
  intro r h
  have h' : r ∈ tab := by unfold tab; exact h
  simp only [L, Layout.hide, Layout.pin, List.mem_append]
  exact Or.inr h'

theorem swRuns (s : Mem) : L.Runs s (trigAt 10) s (caseOf [(0, (C 0).e), (1, (C 1).e), (2, (C 2).e), (3, (C 3).e)] swEnd (s (sv + 348))) := by
  refine sw4_runs wf (cell (by decide +kernel)) (bp 2 rfl) (by simp [L, Layout.hide, Layout.pin, L0])
      tabIn (by decide) (by decide) (by simp [L, Layout.hide])
      (laid0.cellB (x := trigAt 14 + 4) (by decide +kernel)).1 (by decide) (by decide +kernel) s

theorem swCode {b k : Nat} : Code L fend b k (.prim (SwRel L (fun s => s (sv + 348)) (cases0 4 (case L)))) (trigAt 10) swEnd :=
  ExDwPtr.sw4_code wf swRuns (cCode 0 (by decide)) (cCode 1 (by decide)) (cCode 2 (by decide)) (cCode 3 (by decide))

theorem fCode : FuncCode L F.e fend nptr [fr] (fBody L) := by
  refine ⟨⟨0, 0, emitD_code (S := fun _ => swS) (f := fun _ => .prim (SwRel L (fun s => s (sv + 348)) (cases0 4 (case L)))) (es := fES) ?_ (by decide +kernel) (into 1 0 rfl rfl (by decide +kernel))⟩,
    fendBlks_end (bp 0 rfl) (cell (by decide +kernel)) (fun v hv => ?_) (by simp)⟩
  · intro j b k x n m E h hi
    simp only [swS] at h
    split at h
    · rename_i hx
      cases h
      rw [hx]
      exact swCode
    · cases h
  · rw [List.mem_singleton.1 hv]
    exact ⟨cell (by decide +kernel), by decide⟩

def pF : Nat → Stmt
  | 0 => .prim (SetCpRel L .add w)
  | _ => (fS L).stmt L
theorem cs : callS (fS L) = callS (fS L00) := callS_body _ _ _ _ _ _ _ _
theorem p0 : sP L00 0 = cpS w .add := rfl
theorem p1 (l : Nat) : sP L00 (l + 1) = callS (fS L00) := rfl
theorem q0 : pF 0 = .prim (SetCpRel L .add w) := rfl
theorem q1 (l : Nat) : pF (l + 1) = (fS L).stmt L := rfl

theorem code : Code L retAt 0 0 (pES.stmt pF) M.e haltAt := by
  refine emitD_code (S := sP L00) (f := pF) (es := pES) ?_ (by decide +kernel) (into 15 9 rfl rfl (by decide +kernel))
  intro l b k x n m E h hi
  match l with
  | 0 => rw [p0] at h; rw [q0]; exact cpS_code wf (vars _ (by decide)) h hi
  | l + 1 => rw [p1] at h; rw [q1]; exact callS_code (c := fS L) wf fCode (by decide +kernel) (by rw [cs]; exact h) hi

/-! The result. -/

def sc (j : Nat) : List Nat := callOnly (mp j) [(trigAt (110 + 40 * j), t j + 348)] [(exVar (8 + j) + 348, .var wv)] [trigAt (110 + 40 * j) + 348, exVar 12 + 348]
def scr : List Nat := (List.range 4).flatMap sc

theorem mul (j : Nat) (hj : j < 4) : ShlTo L (fun _ => True) ((mS j).stmt L) wv (8 * j) (t j) scr ∧ t j + 348 ∈ scr := by
  have h1 : ∀ j < 4, callOkB cellQ ((List.range 20).map exVar) (mp j) [(trigAt (110 + 40 * j), t j + 348)] [(exVar (8 + j) + 348, .var wv)] [trigAt (110 + 40 * j) + 348, exVar 12 + 348] = true ∧
    (rest j).e < 2 ^ 32 ∧ cellQ (exVar (8 + j) + 348) = true ∧ cellQ (trigAt (110 + 40 * j) + 348) = true := by decide +kernel
  have h2 : ∀ j < 4, exVar (8 + j) ∈ (List.range 20).map exVar ∧ exVar 12 ≠ exVar (8 + j) ∧ exVar (8 + j) ≠ trigAt (110 + 40 * j) ∧ 256 ^ j ≠ 0xFFFFFFFF ∧ t j + 348 ∈ scr := by decide +kernel
  obtain ⟨a1, a2, a3, a4⟩ := h1 j hj
  obtain ⟨b1, b2, b3, b4, b5⟩ := h2 j hj
  refine ⟨ShlTo.mono (scr := sc j) (ShlTo.ofComp (n := 256 ^ j) (Comp.toI (fn1_call (f := fun x => x * BitVec.ofNat 32 (256 ^ j)) (sa := .var wv) wf (callOkB_spec (cell := cellQ) (fun x h => cell h) vars a1) (mC hj) a2
    (mulFn_wp wf (cell a3) (fun _ => vars _ b1) (fun h => absurd h b4) (cell a4) b2 b3)) fun s s' _ _ => trivial) ?_) ?_, b5⟩
  · rw [show (256 : Nat) = 2 ^ 8 from rfl, ← Nat.pow_mul]
  · exact fun y hy => List.mem_flatMap.2 ⟨j, List.mem_range.2 hj, hy⟩

theorem ed : epdAddr (epd d0 + (epd d - epd d0)) = d := by decide +kernel
theorem ed0 : epdAddr (epd d0) = d0 := by decide +kernel
theorem cCp : L.cell cpAddr := cell (by decide +kernel)

/-- For all dwords, offsets and values. -/
theorem run (x0 x1 x y z : W) : ∃ m', Reaches ⟨mem x0 x1 x y z, M.e⟩ ⟨m', haltAt⟩ ∧
    m' d0 = x0 + z ∧ (if y.toNat < 4 then m' d = cwVal 1 y.toNat x z ∧ (x.toNat < 256 → FieldOp .set 1 y.toNat x z (m' d)) else m' d = z) ∧ m' cpAddr = epd d0 := by
  have hl := laid x0 x1 x y z
  have hvv : ∀ a, L.cell a → ∀ m, L.view m a = m a := fun a ha m => Layout.view_at ha.2
  have icp : L.view (mem x0 x1 x y z) cpAddr = epd d0 := by
    rw [hvv _ cCp]; exact (hl.free (show L0.Free exBuf 20 cpAddr by decide +kernel) (by decide) _).trans (by decide +kernel)
  have ic : L.view (mem x0 x1 x y z) (c + 348) = epd d - epd d0 := by rw [hvv _ (cell (by decide +kernel))]; exact (hl.ok _).2 0 (by simp [vs])
  have ib : L.view (mem x0 x1 x y z) (b + 348) = x := by rw [hvv _ (cell (by decide +kernel))]; exact (hl.ok _).2 1 (by simp [vs])
  have ii : L.view (mem x0 x1 x y z) (i + 348) = y := by rw [hvv _ (cell (by decide +kernel))]; exact (hl.ok _).2 2 (by simp [vs])
  have iw : L.view (mem x0 x1 x y z) (w + 348) = z := by rw [hvv _ (cell (by decide +kernel))]; exact (hl.ok _).2 17 (by simp [vs])
  have i0 : L.view (mem x0 x1 x y z) d0 = x0 := by rw [hvv _ (cell (by decide +kernel))]; exact (hl.ok _).2 18 (by simp [vs])
  have ho := ok x0 x1 x y z
  generalize hs : L.view (mem x0 x1 x y z) = s at *
  have hx : Does L (pES.stmt pF) s fun s' => s' d0 = x0 + z ∧ (if y.toNat < 4 then s' d = cwVal 1 y.toNat x z ∧ (x.toNat < 256 → FieldOp .set 1 y.toNat x z (s' d)) else s' d = z) ∧ s' cpAddr = epd d0 := by
    have fo : FillOk L (cpFills (exVar 19) P (P + 32) (P + 64) (.var c) (.var w) (.const 0xFFFFFFFF)) := by
      refine ⟨by decide +kernel, fun r hr v hv => ?_⟩
      simp only [cpFills, negSrc, List.mem_cons, List.not_mem_nil, or_false] at hr
      rcases hr with rfl | rfl | rfl | rfl <;> cases hv <;> exact ⟨vars _ (by decide), by decide +kernel, cell (by decide +kernel)⟩
    refine Does.seq (Does.mono (C34_cp (md := .set) (s := s) cCp (fun v hv => by cases hv; exact ⟨vars _ (by decide), cell (by decide +kernel), by decide⟩) fo ?_ (by decide +kernel) ?_ ?_) ?_)
    · intro src hr v hv
      simp only [List.mem_cons, List.not_mem_nil, or_false] at hr
      rcases hr with rfl | rfl | rfl <;> cases hv <;> decide
    · simp only [Src.valM, icp, ic, ed]; exact cell (by decide +kernel)
    · simp only [Src.valM, icp, ic, ed]; decide +kernel
    simp only [Src.valM, icp, ic, ed, iw, modify_full, arith]
    rintro s1 ⟨a1, a2, a3⟩
    refine Does.seq (Does.mono (C34_cp_var (md := .add) (v := w) (s := s1) (by rw [a2, ed0]; exact cell (by decide +kernel))) ?_)
    rw [a2, ed0, a3 d0 (by decide +kernel), a3 (w + 348) (by decide +kernel), i0, iw]
    rintro s2 ⟨b1, b2⟩
    have c0 : s2 cpAddr = epd d0 := by rw [b2 _ (by decide +kernel), a2]
    have c1 : s2 (c + 348) = epd d - epd d0 := by rw [b2 _ (by decide +kernel), a3 _ (by decide +kernel), ic]
    have c2 : s2 (i + 348) = y := by rw [b2 _ (by decide +kernel), a3 _ (by decide +kernel), ii]
    have c3 : s2 (b + 348) = x := by rw [b2 _ (by decide +kernel), a3 _ (by decide +kernel), ib]
    have c4 : s2 d = z := by rw [b2 _ (by decide +kernel), a1]
    have hcp : epdAddr (s2 cpAddr + s2 (c + 348)) = d := by rw [c0, c1, ed]
    have hh : CwHyp L nptr sv wv [(fr, o + 348)] (.var i) (.var b) (fun s => s (c + 348)) (fun s => - s (c + 348)) [epdAddr (s2 cpAddr + s2 (c + 348))] [pa + 20, tn + 348, pb + 20] scr [fr + 348] s2 := by
      rw [hcp]
      refine ⟨callOkB_spec (cell := cellQ) (fun _ => cell) vars (by decide +kernel), fun s' h => by rw [h _ (by decide +kernel)], ?_, by decide +kernel, ?_⟩
      · intro A hA
        rw [List.mem_singleton.1 hA]
        exact ⟨cell (by decide +kernel), by decide +kernel⟩
      · intro src hr v hv
        simp only [List.mem_cons, List.not_mem_nil, or_false] at hr
        rcases hr with rfl | rfl <;> cases hv <;> decide +kernel
    refine Does.mono (C34_cp_bvar (I := fun _ => True) (a := cpAddV c pa) (b := cpSubV c tn pb) (s := s2) (back := B.e) wf (by decide)
      ((AddsCp.var cCp (v := c) (p := pa) (vars _ (by decide)) (cell (by decide +kernel)) (by decide)).mono (by simp))
      ((AddsCp.neg cCp (v := c) (t := tn) (p := pb) ⟨vars _ (by decide), vars _ (by decide)⟩ (cell (by decide +kernel)) (by decide) (cell (by decide +kernel)) (by decide)).mono (by simp))
      mul (fun s3 => retVar_wp (cell (by decide +kernel)) (vars _ (by decide)) s3) hh fCode (by decide +kernel) trivial (fun _ _ _ _ => trivial)) ?_
    simp only [Src.valM, c0, c1, ed, c2, c3, c4]
    rintro s3 ⟨g1, g2, -, g4⟩
    refine ⟨by rw [g4 _ (by decide +kernel), b1]; rfl, ?_, g2⟩
    exact g1
  obtain ⟨s', xe, k1, k2, k3⟩ := hx
  obtain ⟨m', rr, -, hv'⟩ := C25_structured wf xe code _ ho hs
  have hm : ∀ z, cellQ z = true → m' z = s' z := fun z hz => by rw [← Layout.view_at (L := L) (m := m') (cell hz).2, hv']
  refine ⟨m', rr, ?_, ?_, ?_⟩
  · rw [hm _ (by decide +kernel), k1]
  · rw [hm _ (by decide +kernel)]; exact k2
  · rw [hm _ (by decide +kernel), k3]

end ExCpWrite
end Eud.SC
