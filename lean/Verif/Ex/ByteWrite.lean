import Verif.Ex.KitSw
import Verif.Lib.ByteWrite
/-
Example for C34: `f_bwrite_epd(e, i, b)` with three variables, in memory, with its switch, and with `f_bitlshift(b, 8)` as a call.
-/

namespace Eud.SC

theorem PVar.hide {L : Layout} {v M x : Nat} (h : PVar L v M) (hx : x ∉ [v + 4, v + 344, v + 348, v + 352]) : PVar (L.hide x) v M := by
  simp only [List.mem_cons, List.not_mem_nil, or_false, not_or] at hx
  have key : ∀ y, L.cell y → x ≠ y → (L.hide x).cell y := fun y hy hn => ⟨hy.1, by rw [Layout.hide_priv]; exact fun e => e.elim (fun e => hn e.symm) hy.2⟩
  exact ⟨h.cend, h.mask, h.eudx, h.aend, h.flag, key _ h.nxt hx.1, key _ h.dst hx.2.1, key _ h.val hx.2.2.1, key _ h.md hx.2.2.2⟩

namespace ExByteWrite

def cpc : Nat := 0xE000000
/-- The parameters; `epd` is run as a trigger. -/
def ev : Nat := 0xE001000
def sv : Nat := exVar 3
def wv : Nat := exVar 4
/-- `_selfadder` -/
def ad : Nat := 0xE002000
def tbl : Nat := 0xE010000

def fr : Nat := trigAt 0
def fend : Nat := trigAt 1
def nptr : Nat := fendPtr [fr] fend
def gend : Nat := trigAt 30
def gptr : Nat := fendPtr [] gend

def e : Nat := exVar 0
def i : Nat := exVar 1
def b : Nat := exVar 2
def d : Nat := exVar 8 + 348
def o : Nat := exVar 9 + 348

/-! The function for `<< 8`. -/

def ns : List Nat := [39, 38, 37, 36, 35, 34, 33, 32].map trigAt
def gp : Nat := trigAt 32 + 328
def gn : Nat := trigAt 31
def gBody (L : Layout) : Stmt := selfBody L ad gp gn ns
def gActs : List PA := [aMemV (ad + 344) .set gp, aMemX (ad + 352) .set 0x07000000 0xFF000000]
def gS : Nat → (b k x n m : Nat) → Option Emitted
  | 0 => vpS ad gn gActs
  | j + 1 => vpS ad (trigAt (40 - (j + 1))) []
def gES : ES := .seq (.seq (.site 1) (.seq (.site 2) (.seq (.site 3) (.seq (.site 4) (.seq (.site 5) (.seq (.site 6) (.seq (.site 7) (.seq (.site 8) (.base .skip)))))))))
  (.seq (.site 0) (.base (.trig [] [aMem (ad + 344) .set (epd (ad + 348)), aMemX (ad + 352) .set 0x08000000 0xFF000000])))
def G : Emitted := emitD gend gS gES 0 0 gend 31 0

/-! The cases. -/

def swEnd : Nat := trigAt 2
def t : Nat → Nat
  | 0 => wv
  | j + 1 => exVar (5 + j)
def p : Nat → Nat
  | 0 => trigAt 20 + 328
  | 1 => trigAt 21 + 328
  | 2 => trigAt 22 + 328
  | _ => trigAt 24 + 328
/-- What follows the shift. -/
def rest (j : Nat) : Stmt := .seq (.asg [⟨p j + 20, .set, .var (t j)⟩]) (.seq (.trig [] [aCpV .set (byteMask 1 j) (p j)]) .brk)
def C1r : Emitted := emitD fend gS (.base (rest 1)) swEnd 0 0 21 10
def L00 : Layout := ⟨⟨[], [], []⟩, [], []⟩
def shC (L : Layout) : Site := ⟨G.e, gend, gptr, C1r.e, gBody L, [], [(gp + 20, .const (epd (t 1 + 348))), (ad + 348, .var wv)]⟩
def sh (L : Layout) : Nat → Stmt
  | 0 => .skip
  | 1 => (shC L).stmt L
  | 2 => shlCopy wv 16 (t 2)
  | _ => shlCopy wv 24 (t 3)
def cS : Nat → (b k x n m : Nat) → Option Emitted := fun _ => callS (shC L00)
def C0 : Emitted := emitD fend cS (.base (.seq .skip (rest 0))) swEnd 0 0 20 5
def C1 : Emitted := emitD fend cS (.seq (.site 0) (.base (rest 1))) swEnd 0 0 21 10
def C2 : Emitted := emitD fend cS (.base (.seq (shlCopy wv 16 (t 2)) (rest 2))) swEnd 0 0 22 20
def C3 : Emitted := emitD fend cS (.base (.seq (shlCopy wv 24 (t 3)) (rest 3))) swEnd 0 0 24 30

/-! The function. -/

def tail : Stmt := retVar fr wv
def T : Emitted := emitD fend cS (.base tail) 0 0 fend 2 0
def fBody (L : Layout) : Stmt := wrBody L ev sv cpc (trigAt 10) T.e (cases0 4 fun j => wrCase .set 1 (sh L j) (t j) (p j) j) tail
def swS (_b _k x n m : Nat) : Option Emitted := if x = swEnd then some ⟨trigAt 10, n, m, [], [], []⟩ else none
def fSt : Nat → (b k x n m : Nat) → Option Emitted
  | 0 => vpS ev (trigAt 10) [aMem (ev + 344) .set (epd cpAddr)]
  | 1 => swS
  | _ => vpS cpc T.e [aMem (cpc + 344) .set (epd cpAddr)]
def F : Emitted := emitD fend fSt (.seq (.site 0) (.seq (.site 1) (.seq (.site 2) (.base tail)))) 0 0 fend 2 0

def c (L : Layout) : Site := ⟨F.e, fend, nptr, haltAt, fBody L, [(fr, o)], [(ev + 348, .var e), (sv + 348, .var i), (wv + 348, .var b)]⟩
def M : Emitted := emitD retAt (fun _ => callS (c L00)) (.site 0) 0 0 haltAt 50 40

/-! Memory. -/

def swBlks : List SBlk := sw4Blks (sv + 348) (trigAt 10) (trigAt 11) (trigAt 12) (trigAt 13) (trigAt 14) tbl swEnd
def tab : List (Nat × Nat) := sw4Tab tbl C0.e C1.e C2.e C3.e
def L0 : Layout := ⟨⟨fendBlks [fr] fend ++ F.blks ++ swBlks ++ C0.blks ++ C1.blks ++ C2.blks ++ C3.blks ++ fendBlks [] gend ++ G.blks,
  F.seqs ++ C0.seqs ++ C1.seqs ++ C2.seqs ++ C3.seqs ++ M.seqs, (List.range 10).map exVar⟩, [(trigAt 10, swEnd)], []⟩
def X : List (Nat × Nat) := pvPins cpc ++ pvPins ev ++ pvPins ad ++ tab
def L : Layout := (L0.pin X).hide (trigAt 14 + 4)

/-- The variable `i` holds `y`, `b` holds `z`, and the dword `d` is `x`. -/
def vs (x y z : W) : List W := [epd d, y, z, 0, 0, 0, 0, 0, x, 0]
def holes : List (Nat × W) := [(cpc + 348, 5), (cpc + 352, pmod .set), (ev + 352, pmod .set), (ad + 344, epd (ad + 348)), (ad + 352, pmod .add)]
def mem (x y z : W) : Mem := L0.mem exBuf (vs x y z) (pinHoles X ++ holes)

theorem laid (x y z : W) : L0.Laid exBuf (vs x y z) := Layout.laidB_spec (show L0.laidB exBuf 10 = true by decide +kernel)
theorem pins (x y z : W) : L0.pinB exBuf (vs x y z).length X = true := show L0.pinB exBuf 10 X = true by decide +kernel
theorem wf : L.Wf := ((laid 0 0 0).pinWf (pins 0 0 0)).hide (Layout.freeB_spec (by decide +kernel))
theorem ok (x y z : W) : L.Ok (mem x y z) := by
  have h := (laid x y z).pinOk (pins x y z) holes
  exact ⟨h.prog, h.mask, h.rest⟩
theorem pvs (v : Nat) (h : v ∈ [cpc, ev, ad]) : PVar L v := by
  have h1 : ∀ v ∈ [cpc, ev, ad], (∀ r ∈ pvPins v, r ∈ X) ∧ (∀ o ∈ [4, 344, 348, 352], L0.Free exBuf 10 (v + o) ∧ ∀ r ∈ X, v + o ≠ r.1 + 4) ∧ trigAt 14 + 4 ∉ [v + 4, v + 344, v + 348, v + 352] := by
    decide +kernel
  exact (PVar.pin (laid 0 0 0) (h1 v h).1 (h1 v h).2.1).hide (h1 v h).2.2
def cellQ (x : Nat) : Bool := L0.pinCellB X x && x != trigAt 14 + 4
theorem cell {x : Nat} (h : cellQ x = true) : L.cell x := by
  simp only [cellQ, Bool.and_eq_true, bne_iff_ne, ne_eq] at h
  have hc := (laid 0 0 0).pinCellB h.1
  exact ⟨hc.1, by rw [L, Layout.hide_priv]; exact fun e => e.elim h.2 hc.2⟩

/-! Code. -/

theorem into {E : Emitted} (h1 : ∀ b ∈ E.blks, b ∈ L0.P.blks) (h2 : ∀ b ∈ E.seqs, b ∈ L0.P.seqs) (h3 : E.rest = []) : E.Into L := ⟨h1, h2, by rw [h3]; simp⟩

theorem blk_mem {b : SBlk} (h : b ∈ fendBlks [fr] fend ∨ b ∈ F.blks ∨ b ∈ swBlks ∨ b ∈ C0.blks ∨ b ∈ C1.blks ∨ b ∈ C2.blks ∨ b ∈ C3.blks ∨ b ∈ fendBlks [] gend ∨ b ∈ G.blks) :
    b ∈ L0.P.blks := by
  simp only [L0, List.mem_append]
  grind
theorem seq_mem {b : Blk} (h : b ∈ F.seqs ∨ b ∈ C0.seqs ∨ b ∈ C1.seqs ∨ b ∈ C2.seqs ∨ b ∈ C3.seqs ∨ b ∈ M.seqs) : b ∈ L0.P.seqs := by
  simp only [L0, List.mem_append]
  grind

theorem gCode : FuncCode L G.e gend gptr [] (gBody L) := by
  have hi : G.Into L := into (fun b h => blk_mem (by simp [h])) (by rw [show G.seqs = [] by decide +kernel]; simp) (by decide +kernel)
  refine ⟨⟨0, 0, emitD_code (S := gS) (f := fun j => match j with | 0 => vproc L ad 0xFFFFFFFF gn gActs | j + 1 => vproc L ad 0xFFFFFFFF (trigAt (40 - (j + 1))) []) (es := gES) ?_ (by decide +kernel) hi⟩,
    fendBlks_end (fun b h => blk_mem (by simp [h])) (cell (by decide +kernel)) (by simp) (by simp)⟩
  intro j b k x n m E h hi
  match j with
  | 0 => exact vpS_code wf (pvs _ (by simp)) h hi
  | _ + 1 => exact vpS_code wf (pvs _ (by simp)) h hi

theorem cCode {es : ES} {n m : Nat} (h : (emitG fend cS es swEnd 0 0 n m).isSome = true) (hi : (emitD fend cS es swEnd 0 0 n m).Into L) :
    Code L fend swEnd 0 (es.stmt fun _ => (shC L).stmt L) (emitD fend cS es swEnd 0 0 n m).e 0 :=
  emitD_code (fun j b k x n m E h hi => callS_code (c := shC L) wf gCode (by simp [shC]) h hi) h hi

theorem swCode {b k : Nat} : Code L fend b k (.prim (SwRel L (fun s => s (sv + 348)) (cases0 4 fun j => wrCase .set 1 (sh L j) (t j) (p j) j))) (trigAt 10) swEnd := by
  refine sw_code wf (val := fun s => s (sv + 348)) (cases := [(0, C0.e, wrCase .set 1 (sh L 0) (t 0) (p 0) 0), (1, C1.e, wrCase .set 1 (sh L 1) (t 1) (p 1) 1),
    (2, C2.e, wrCase .set 1 (sh L 2) (t 2) (p 2) 2), (3, C3.e, wrCase .set 1 (sh L 3) (t 3) (p 3) 3)]) ?_ ?_
  · exact sw4_runs wf (cell (by decide +kernel)) (fun b h => blk_mem (Or.inr (Or.inr (Or.inl h)))) (by simp [L, Layout.hide, Layout.pin, L0])
      (fun r h => by simp only [L, Layout.hide, Layout.pin, X, List.mem_append]; exact Or.inr (Or.inr h)) (by decide) (by decide) (by simp [L, Layout.hide])
      ((laid 0 0 0).cellB (x := trigAt 14 + 4) (by decide +kernel)).1 (by decide) (by decide +kernel)
  · intro c hc
    simp only [List.mem_cons, List.not_mem_nil, or_false] at hc
    rcases hc with rfl | rfl | rfl | rfl
    · exact ⟨0, fend, 0, cCode (es := .base (.seq .skip (rest 0))) (by decide +kernel) (into (fun b h => blk_mem (by simp only [C0]; grind)) (fun b h => seq_mem (by simp only [C0]; grind)) (by decide +kernel))⟩
    · exact ⟨0, fend, 0, cCode (es := .seq (.site 0) (.base (rest 1))) (by decide +kernel) (into (fun b h => blk_mem (by simp only [C1]; grind)) (fun b h => seq_mem (by simp only [C1]; grind)) (by decide +kernel))⟩
    · exact ⟨0, fend, 0, cCode (es := .base (.seq (shlCopy wv 16 (t 2)) (rest 2))) (by decide +kernel) (into (fun b h => blk_mem (by simp only [C2]; grind)) (fun b h => seq_mem (by simp only [C2]; grind)) (by decide +kernel))⟩
    · exact ⟨0, fend, 0, cCode (es := .base (.seq (shlCopy wv 24 (t 3)) (rest 3))) (by decide +kernel) (into (fun b h => blk_mem (by simp only [C3]; grind)) (fun b h => seq_mem (by simp only [C3]; grind)) (by decide +kernel))⟩

def fS : Nat → Stmt
  | 0 => vproc L ev 0xFFFFFFFF (trigAt 10) [aMem (ev + 344) .set (epd cpAddr)]
  | 1 => .prim (SwRel L (fun s => s (sv + 348)) (cases0 4 fun j => wrCase .set 1 (sh L j) (t j) (p j) j))
  | _ => cpBack L cpc T.e

theorem fCode : FuncCode L F.e fend nptr [fr] (fBody L) := by
  have hi : F.Into L := into (fun b h => blk_mem (by simp [h])) (fun b h => seq_mem (by simp [h])) (by decide +kernel)
  refine ⟨⟨0, 0, emitD_code (S := fSt) (f := fS) (es := .seq (.site 0) (.seq (.site 1) (.seq (.site 2) (.base tail)))) ?_ (by decide +kernel) hi⟩,
    fendBlks_end (fun b h => blk_mem (by simp [h])) (cell (by decide +kernel)) (fun v hv => ?_) (by simp)⟩
  · intro j b k x n m E h hi
    match j with
    | 0 => exact vpS_code wf (pvs _ (by simp)) h hi
    | 1 =>
      simp only [fSt, swS] at h
      split at h
      · rename_i hx
        cases h
        rw [hx]
        exact swCode
      · cases h
    | _ + 2 => exact vpS_code wf (pvs _ (by simp)) h hi
  · rw [List.mem_singleton.1 hv]
    exact ⟨cell (by decide +kernel), by decide⟩

theorem code : Code L retAt 0 0 ((c L).stmt L) M.e haltAt :=
  emitD_code (S := fun _ => callS (c L00)) (f := fun _ => (c L).stmt L) (es := .site 0) (n := 50) (m := 40) (fun j b k x n m E h hi => callS_code (c := c L) wf fCode (by decide) h hi) (by decide +kernel)
    (into (by rw [show (emitD retAt (fun _ => callS (c L00)) (.site 0) 0 0 haltAt 50 40).blks = [] by decide +kernel]; simp) (fun b h => seq_mem (by simp only [M]; grind)) (by decide +kernel))

/-! The result. -/

def scr : List Nat := [t 0 + 348, t 1 + 348, t 2 + 348, t 3 + 348, p 0 + 20, p 1 + 20, p 2 + 20, p 3 + 20, gptr, gp + 20] ++ selfScr ad

theorem vars : ∀ v ∈ (List.range 10).map exVar, v ∈ L.P.vars := fun _ h => h

theorem shifts (j : Nat) (hj : j < 4) : ShlTo L (SelfInv ad) (sh L j) wv (8 * j) (t j) scr ∧ t j ∈ L.P.vars ∧ L.cell (p j + 20) ∧ p j + 20 ∈ scr ∧ t j + 348 ∈ scr := by
  have hc : ∀ j < 4, cellQ (p j + 20) = true ∧ cellQ (t j + 348) = true ∧ p j + 20 ∈ scr ∧ t j + 348 ∈ scr ∧ t j ∈ (List.range 10).map exVar ∧ ad + 344 ≠ t j + 348 ∧ ad + 352 ≠ t j + 348 := by decide +kernel
  obtain ⟨h1, h2, h3, h4, h5, h6, h7⟩ := hc j hj
  refine ⟨?_, vars _ h5, cell h1, h3, h4⟩
  have hI : ∀ s s', Only [t j + 348] s s' → SelfInv ad s → SelfInv ad s' := fun s s' ho h => h.only ho (by simpa using h6) (by simpa using h7)
  have hj' : j = 0 ∨ j = 1 ∨ j = 2 ∨ j = 3 := by omega
  rcases hj' with rfl | rfl | rfl | rfl
  · exact (ShlTo.zero wv).mono (by simp)
  · exact (ShlTo.call wf (ns := ns) (pvs ad (by simp)) (by decide) (cell h2) (by decide) (by decide) (by decide) (callOkB_spec (fun _ => cell) vars (by decide +kernel)) gCode (by decide +kernel) (by decide)).mono
      (by decide)
  · exact (ShlTo.copy (vars wv (by decide)) (cell h2) (by omega) hI).mono (by simp [h4])
  · exact (ShlTo.copy (vars wv (by decide)) (cell h2) (by omega) hI).mono (by simp [h4])

theorem ed : epdAddr (epd d) = d := by decide +kernel

set_option linter.constructorNameAsVariable false in
/-- For every dword, every offset and every value. -/
theorem run (x y z : W) : ∃ m', Reaches ⟨mem x y z, M.e⟩ ⟨m', haltAt⟩ ∧ (if y.toNat < 4 then FieldOp .set 1 y.toNat z x (m' d) else m' d = x) ∧ m' cpAddr = 5 := by
  have hl := laid x y z
  have hcd : ∀ a ∈ [cpc + 348, cpc + 352, ev + 352, ad + 344, ad + 352, e + 348, i + 348, b + 348, d, cpAddr], cellQ a = true := by decide +kernel
  have hc : ∀ a ∈ [cpc + 348, cpc + 352, ev + 352, ad + 344, ad + 352, e + 348, i + 348, b + 348, d, cpAddr], ∀ m, L.view m a = m a := fun a ha m => Layout.view_at (cell (hcd a ha)).2
  have fr' : ∀ a ∈ [cpc + 348, cpc + 352, ev + 352, ad + 344, ad + 352], L0.Free exBuf 10 a := by decide +kernel
  have hv : ∀ a ∈ [cpc + 348, cpc + 352, ev + 352, ad + 344, ad + 352], L.view (mem x y z) a = (match (pinHoles X ++ holes).find? (fun r => r.1 == a) with | some r => r.2 | none => 0) := by
    intro a ha
    rw [hc a (by simp at ha ⊢; omega)]
    exact hl.free (fr' a ha) (by decide) _
  have i348 : L.view (mem x y z) (cpc + 348) = 5 := (hv _ (by simp)).trans (by decide +kernel)
  have i352 : L.view (mem x y z) (cpc + 352) = pmod .set := (hv _ (by simp)).trans (by decide +kernel)
  have e352 : L.view (mem x y z) (ev + 352) = pmod .set := (hv _ (by simp)).trans (by decide +kernel)
  have a344 : L.view (mem x y z) (ad + 344) = epd (ad + 348) := (hv _ (by simp)).trans (by decide +kernel)
  have a352 : L.view (mem x y z) (ad + 352) = pmod .add := (hv _ (by simp)).trans (by decide +kernel)
  have ie : L.view (mem x y z) (e + 348) = epd d := by rw [hc _ (by simp)]; exact (hl.ok _).2 0 (by simp [vs])
  have ii : L.view (mem x y z) (i + 348) = y := by rw [hc _ (by simp)]; exact (hl.ok _).2 1 (by simp [vs])
  have ib : L.view (mem x y z) (b + 348) = z := by rw [hc _ (by simp)]; exact (hl.ok _).2 2 (by simp [vs])
  have id' : L.view (mem x y z) d = x := by rw [hc _ (by simp)]; exact (hl.ok _).2 8 (by simp [vs])
  have hh : WrHyp L nptr ev sv wv cpc [(fr, o)] (.var e) (.var i) (.var b) [epdAddr (Src.valM (L.view (mem x y z)) (.var e))] scr [fr + 348] (L.view (mem x y z)) := by
    rw [show Src.valM (L.view (mem x y z)) (.var e) = epd d from ie, ed]
    refine ⟨callOkB_spec (fun _ => cell) vars (by decide +kernel), ⟨pvs _ (by simp), pvs _ (by simp), cell (by decide +kernel), by decide, by decide⟩, e352, i352, ?_, by decide +kernel, by decide +kernel,
      by decide, by decide, by decide⟩
    intro A hA
    rw [List.mem_singleton.1 hA]
    exact ⟨cell (by decide +kernel), by decide +kernel⟩
  obtain ⟨s1, x1, e1, e2, -, -⟩ := C34_bytes (s := L.view (mem x y z)) (e := .var e) (i := .var i) (x := .var b) (back := haltAt) (scr := scr) (tscr := [fr + 348]) (md := .set) (nb := 1) (k := 4) wf (by omega) shifts
    (retVar_wp (cell (by decide +kernel)) (vars wv (by decide))) hh fCode (by decide) ⟨a344, a352⟩ (by
      rw [show Src.valM (L.view (mem x y z)) (.var e) = epd d from ie, ed]
      exact fun s s' ho h => h.only ho (by decide +kernel) (by decide +kernel))
  simp only [Src.valM, ie, ii, ib, ed, id'] at e1
  obtain ⟨m', rr, -, hv'⟩ := C25_structured wf x1 code _ (ok x y z) rfl
  refine ⟨m', rr, ?_, ?_⟩
  · rw [← hc d (by simp) m', hv']
    exact e1
  · rw [← hc cpAddr (by simp) m', hv', e2, i348]

end ExByteWrite

end Eud.SC
