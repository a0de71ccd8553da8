import Verif.Ex.Kit
import Verif.Ex.ByteWrite
import Verif.Lib.MulDivFn
/-
Example for C20 and C21: `f_mul(x, 8)`, `f_mul(x, -1)`, `f_div(x, 10)`, `x // 8` and `x % 10` in memory, for all values of `x`.
-/

namespace Eud.SC

namespace ExMulDivFn

def ad : Nat := 0xE002000
def x : Nat := exVar 0
def o (i : Nat) : Nat := exVar (1 + i) + 348
def noS : Nat → (b k x n m : Nat) → Option Emitted := fun _ _ _ _ _ _ => none

/-! The functions: `* -1`, `divmod 10`, `// 8`, `% 10`, `<< 3`. -/

def mB : Stmt := mulFn (exVar 7) (trigAt 0) (exVar 8) 0xFFFFFFFF
def mFe : Nat := trigAt 1
def mE : Emitted := emitD mFe noS (.base mB) 0 0 mFe 2 0
def dB : Stmt := divFn (trigAt 3) (trigAt 2) (trigAt 3) 10
def dFe : Nat := trigAt 4
def dE : Emitted := emitD dFe noS (.base dB) 0 0 dFe 5 10
def qB : Stmt := quotFn (trigAt 40) (trigAt 40) 8
def qFe : Nat := trigAt 41
def qE : Emitted := emitD qFe noS (.base qB) 0 0 qFe 42 12
def rB : Stmt := remFn (trigAt 50) (trigAt 50) 10
def rFe : Nat := trigAt 51
def rE : Emitted := emitD rFe noS (.base rB) 0 0 rFe 52 12
def ns : List Nat := [94, 93, 92].map trigAt
def sFe : Nat := trigAt 90
def gp : Nat := trigAt 92 + 328
def sActs : List PA := [aMemV (ad + 344) .set gp, aMemX (ad + 352) .set 0x07000000 0xFF000000]
def sS : Nat → (b k x n m : Nat) → Option Emitted
  | 0 => vpS ad (trigAt 91) sActs
  | j + 1 => vpS ad (trigAt (95 - (j + 1))) []
def sES : ES := .seq (.seq (.site 1) (.seq (.site 2) (.seq (.site 3) (.base .skip))))
  (.seq (.site 0) (.base (.trig [] [aMem (ad + 344) .set (epd (ad + 348)), aMemX (ad + 352) .set 0x08000000 0xFF000000])))
def sE : Emitted := emitD sFe sS sES 0 0 sFe 91 12

/-! The program -/

def back (i : Nat) : Nat := if i = 4 then haltAt else seqAt ([25, 24, 23, 22].getD i 0)
def mA : MulAt := ⟨mFe, fendPtr [trigAt 0] mFe, mE.e, back 1, exVar 7, trigAt 0, exVar 8, ad, gp, trigAt 91, ns⟩
def sA : MulAt := { mA with fend := sFe, nptr := fendPtr [] sFe, fstart := sE.e, back := back 0 }
def dNp : Nat := fendPtr [trigAt 2, trigAt 3] dFe
def qNp : Nat := fendPtr [trigAt 40] qFe
def rNp : Nat := fendPtr [trigAt 50] rFe

def site (L : Layout) : Nat → Site
  | 0 => ⟨sE.e, sFe, sA.nptr, back 0, selfBody L ad gp (trigAt 91) ns, [], [(gp + 20, .const (epd (o 0))), (ad + 348, .var x)]⟩
  | 1 => ⟨mE.e, mFe, mA.nptr, back 1, mB, [(trigAt 0, o 1)], [(exVar 7 + 348, .var x)]⟩
  | 2 => ⟨dE.e, dFe, dNp, back 2, dB, [(trigAt 2, o 2), (trigAt 3, o 3)], [(trigAt 3 + 348, .var x)]⟩
  | 3 => ⟨qE.e, qFe, qNp, back 3, qB, [(trigAt 40, o 4)], [(trigAt 40 + 348, .var x)]⟩
  | _ => ⟨rE.e, rFe, rNp, back 4, rB, [(trigAt 50, o 5)], [(trigAt 50 + 348, .var x)]⟩
def L00 : Layout := ⟨⟨[], [], []⟩, [], []⟩
def pS : Nat → (b k x n m : Nat) → Option Emitted := fun j => callS (site L00 j)
def pES : ES := .seq (.site 0) (.seq (.site 1) (.seq (.site 2) (.seq (.site 3) (.site 4))))
def pE : Emitted := emitD retAt pS pES 0 0 haltAt 100 22

/-! Memory -/

def parts : List (List SBlk) := [fendBlks [trigAt 0] mFe, fendBlks [trigAt 2, trigAt 3] dFe, dE.blks, fendBlks [trigAt 40] qFe, qE.blks, fendBlks [trigAt 50] rFe, rE.blks, fendBlks [] sFe, sE.blks]
def sparts : List (List Blk) := [mE.seqs, dE.seqs, pE.seqs]
def L0 : Layout := ⟨⟨parts.flatten, sparts.flatten, (List.range 9).map exVar⟩, [], []⟩
def X : List (Nat × Nat) := pvPins ad
def L : Layout := L0.pin X

def vs (xv : BitVec 32) : List (BitVec 32) := [xv, 7, 7, 7, 7, 7, 7, 0, 0]
def holes : List (Nat × BitVec 32) := [(ad + 344, epd (ad + 348)), (ad + 352, pmod .add)]
def mem (xv : BitVec 32) : Mem := L0.mem exBuf (vs xv) (pinHoles X ++ holes)

theorem laid (xv : BitVec 32) : L0.Laid exBuf (vs xv) := Layout.laidB_spec (show L0.laidB exBuf 9 = true by decide +kernel)
theorem pins : L0.pinB exBuf 9 X = true := by decide +kernel
theorem laid0 : L0.Laid exBuf (vs 0) := laid 0
theorem wf : L.Wf := laid0.pinWf pins
theorem ok (xv : BitVec 32) : L.Ok (mem xv) := (laid xv).pinOk pins holes
def cellQ (x : Nat) : Bool := L0.pinCellB X x
theorem cell {x : Nat} (h : cellQ x = true) : L.cell x := laid0.pinCellB h
theorem pv : PVar L ad := by
  have h1 : (∀ r ∈ pvPins ad, r ∈ X) ∧ (∀ o ∈ [4, 344, 348, 352], L0.Free exBuf 9 (ad + o) ∧ ∀ r ∈ X, ad + o ≠ r.1 + 4) := by decide +kernel
  exact PVar.pin laid0 h1.1 h1.2
theorem vars : ∀ v ∈ (List.range 9).map exVar, v ∈ L.P.vars := fun _ h => h

theorem bp {l : List SBlk} (k : Nat) (h : parts[k]? = some l) : ∀ b ∈ l, b ∈ L.P.blks := fun _ hb => List.mem_flatten.2 ⟨l, List.mem_of_getElem? h, hb⟩
theorem sp {l : List Blk} (k : Nat) (h : sparts[k]? = some l) : ∀ b ∈ l, b ∈ L.P.seqs := fun _ hb => List.mem_flatten.2 ⟨l, List.mem_of_getElem? h, hb⟩
theorem into {E : Emitted} (hb : E.blks = [] ∨ ∃ k : Nat, parts[k]? = some E.blks) (hs : E.seqs = [] ∨ ∃ j : Nat, sparts[j]? = some E.seqs) (h3 : E.rest = []) : E.Into L := by
  refine ⟨?_, ?_, by rw [h3]; simp⟩
  · rcases hb with e | ⟨j, e⟩
    · rw [e]; simp
    · exact bp j e
  · rcases hs with e | ⟨j, e⟩
    · rw [e]; simp
    · exact sp j e

/-! Code -/

/-- A function without calls in it. -/
theorem fn {B : Stmt} {fe n m : Nat} {rs : List Nat} (h : (emitG fe noS (.base B) 0 0 fe n m).isSome = true) (hi : (emitD fe noS (.base B) 0 0 fe n m).Into L)
    (hb : ∀ b ∈ fendBlks rs fe, b ∈ L.P.blks) (hc : cellQ (fendPtr rs fe) = true) (hv : ∀ v ∈ rs, cellQ (v + 4) = true ∧ v < 2 ^ 32) (hl : rs.Nodup) :
    FuncCode L (emitD fe noS (.base B) 0 0 fe n m).e fe (fendPtr rs fe) rs B :=
  ⟨⟨0, 0, emitD_code (S := noS) (f := fun _ => .skip) (es := .base B) (fun j b k x n m E h => by simp [noS] at h) h hi⟩,
    fendBlks_end hb (cell hc) (fun v hv' => ⟨cell (hv v hv').1, (hv v hv').2⟩) hl⟩

theorem mC : FuncCode L mE.e mFe mA.nptr [trigAt 0] mB :=
  fn (by decide +kernel) (into (.inl (by decide +kernel)) (.inr ⟨0, rfl⟩) (by decide +kernel)) (bp 0 rfl) (by decide +kernel) (by decide +kernel) (by decide)
theorem dC : FuncCode L dE.e dFe dNp [trigAt 2, trigAt 3] dB :=
  fn (by decide +kernel) (into (.inr ⟨2, rfl⟩) (.inr ⟨1, rfl⟩) (by decide +kernel)) (bp 1 rfl) (by decide +kernel) (by decide +kernel) (by decide)
theorem qC : FuncCode L qE.e qFe qNp [trigAt 40] qB :=
  fn (by decide +kernel) (into (.inr ⟨4, rfl⟩) (.inl (by decide +kernel)) (by decide +kernel)) (bp 3 rfl) (by decide +kernel) (by decide +kernel) (by decide)
theorem rC : FuncCode L rE.e rFe rNp [trigAt 50] rB :=
  fn (by decide +kernel) (into (.inr ⟨6, rfl⟩) (.inl (by decide +kernel)) (by decide +kernel)) (bp 5 rfl) (by decide +kernel) (by decide +kernel) (by decide)
theorem sC : FuncCode L sE.e sFe sA.nptr [] (selfBody L ad gp (trigAt 91) ns) := by
  refine ⟨⟨0, 0, emitD_code (S := sS) (f := fun j => match j with | 0 => vproc L ad 0xFFFFFFFF (trigAt 91) sActs | j + 1 => vproc L ad 0xFFFFFFFF (trigAt (95 - (j + 1))) []) (es := sES) ?_ (by decide +kernel)
    (into (.inr ⟨8, rfl⟩) (.inl (by decide +kernel)) (by decide +kernel))⟩, fendBlks_end (bp 7 rfl) (cell (by decide +kernel)) (fun v hv => by simp at hv) (by decide)⟩
  intro j b k x' n m E h hi
  match j with
  | 0 => exact vpS_code wf pv h hi
  | _ + 1 => exact vpS_code wf pv h hi

def prog : Stmt := pES.stmt fun j => (site L j).stmt L

theorem code : Code L retAt 0 0 prog pE.e haltAt := by
  refine emitD_code (S := pS) (f := fun j => (site L j).stmt L) (es := pES) ?_ (by decide +kernel) (into (.inl (by decide +kernel)) (.inr ⟨2, rfl⟩) (by decide +kernel))
  intro j b k x' n m E h hi
  match j with
  | 0 => exact callS_code (c := site L 0) wf sC (by intro r h; cases h) h hi
  | 1 => exact callS_code (c := site L 1) wf mC (by intro r h; revert r; decide) h hi
  | 2 => exact callS_code (c := site L 2) wf dC (by intro r h; revert r; decide) h hi
  | 3 => exact callS_code (c := site L 3) wf qC (by intro r h; revert r; decide) h hi
  | j + 4 => exact callS_code (c := site L 4) wf rC (by intro r h; revert r; decide) h hi

/-! What the calls do -/

theorem w0 : CompI L (SelfInv ad) ((site L 0).stmt L) (o 0) (fun s => s (x + 348) * 8) (sA.scr (.var x) (o 0) 8) := by
  have h := C20_number (L := L) wf (C := sA) (sa := .var x) (q := o 0) (number := 8) ⟨by decide, by decide +kernel, by
    rw [show mulPow (8 % 2 ^ 32) = some 3 by decide]
    exact ⟨rfl, pv, by decide, cell (by decide +kernel), by decide, by decide, by decide, callOkB_spec (fun x h => cell (x := x) h) vars (by decide +kernel), sC⟩⟩
  unfold mulNum at h
  rw [show mulPow (8 % 2 ^ 32) = some 3 by decide] at h
  exact h

theorem w1 : CompI L (SelfInv ad) ((site L 1).stmt L) (o 1) (fun s => s (x + 348) * 0xFFFFFFFF) (mA.scr (.var x) (o 1) 0xFFFFFFFF) := by
  have h := C20_number (L := L) wf (C := mA) (sa := .var x) (q := o 1) (number := 0xFFFFFFFF) ⟨by decide, by decide +kernel, by
    rw [show mulPow (0xFFFFFFFF % 2 ^ 32) = none by decide]
    exact ⟨cell (by decide +kernel), fun _ => vars _ (by decide), fun _ => vars _ (by decide), cell (by decide +kernel), by decide, by decide, callOkB_spec (fun x h => cell (x := x) h) vars (by decide +kernel), mC⟩⟩
  unfold mulNum at h
  rw [show mulPow (0xFFFFFFFF % 2 ^ 32) = none by decide] at h
  exact h

theorem w2 : Comp2 L ((site L 2).stmt L) (o 2) (o 3) (fun s => quotE (s (x + 348)) 10) (fun s => remE (s (x + 348)) 10) (callOnly dNp [(trigAt 2, o 2), (trigAt 3, o 3)] [(trigAt 3 + 348, .var x)] [trigAt 2 + 348, trigAt 3 + 348]) :=
  C21_number (L := L) wf (n := 10) (a := trigAt 3) (cell (by decide +kernel)) (fun h => absurd h (by decide)) (cell (by decide +kernel)) (cell (by decide +kernel)) (by decide) (by decide) (by decide)
    (callOkB_spec (fun x h => cell (x := x) h) vars (by decide +kernel)) dC (by decide)

theorem w3 : Comp L ((site L 3).stmt L) (o 4) (fun s => quotE (s (x + 348)) 8) (callOnly qNp [(trigAt 40, o 4)] [(trigAt 40 + 348, .var x)] [trigAt 40 + 348, trigAt 40 + 348]) :=
  C21_number_quot (L := L) wf (n := 8) (a := trigAt 40) (by decide) (cell (by decide +kernel)) (fun h => absurd h (by decide)) (cell (by decide +kernel)) (by decide)
    (callOkB_spec (fun x h => cell (x := x) h) vars (by decide +kernel)) qC (by decide)

theorem w4 : Comp L ((site L 4).stmt L) (o 5) (fun s => remE (s (x + 348)) 10) (callOnly rNp [(trigAt 50, o 5)] [(trigAt 50 + 348, .var x)] [trigAt 50 + 348]) :=
  C21_number_rem (L := L) wf (n := 10) (a := trigAt 50) (by decide) (cell (by decide +kernel)) (fun h => absurd h (by decide)) (cell (by decide +kernel)) (fun _ => rfl)
    (callOkB_spec (fun x h => cell (x := x) h) vars (by decide +kernel)) rC (by decide)

theorem does (s : Mem) (hi : SelfInv ad s) : Does L prog s fun s' => s' (o 0) = s (x + 348) * 8 ∧ s' (o 1) = s (x + 348) * 0xFFFFFFFF ∧
    (s' (o 2)).toNat = (s (x + 348)).toNat / 10 ∧ (s' (o 3)).toNat = (s (x + 348)).toNat % 10 ∧ (s' (o 4)).toNat = (s (x + 348)).toNat / 8 ∧
    (s' (o 5)).toNat = (s (x + 348)).toNat % 10 := by
  refine Does.seq ((w0 s hi).mono ?_)
  rintro s1 ⟨a1, i1, f1⟩
  refine Does.seq ((w1 s1 i1).mono ?_)
  rintro s2 ⟨a2, -, f2⟩
  refine Does.seq ((w2 s2).mono ?_)
  rintro s3 ⟨a3, b3, f3⟩
  refine Does.seq ((w3 s3).mono ?_)
  rintro s4 ⟨a4, f4⟩
  refine (w4 s4).mono ?_
  rintro s5 ⟨a5, f5⟩
  have k1 : ∀ y ∈ [x + 348], y ∉ o 0 :: sA.scr (.var x) (o 0) 8 := by decide +kernel
  have k2 : ∀ y ∈ [x + 348, o 0], y ∉ o 1 :: mA.scr (.var x) (o 1) 0xFFFFFFFF := by decide +kernel
  have k3 : ∀ y ∈ [x + 348, o 0, o 1], y ∉ o 2 :: o 3 :: callOnly dNp [(trigAt 2, o 2), (trigAt 3, o 3)] [(trigAt 3 + 348, .var x)] [trigAt 2 + 348, trigAt 3 + 348] := by decide +kernel
  have k4 : ∀ y ∈ [x + 348, o 0, o 1, o 2, o 3], y ∉ o 4 :: callOnly qNp [(trigAt 40, o 4)] [(trigAt 40 + 348, .var x)] [trigAt 40 + 348, trigAt 40 + 348] := by decide +kernel
  have k5 : ∀ y ∈ [x + 348, o 0, o 1, o 2, o 3, o 4], y ∉ o 5 :: callOnly rNp [(trigAt 50, o 5)] [(trigAt 50 + 348, .var x)] [trigAt 50 + 348] := by decide +kernel
  have x1 := f1 _ (k1 (x + 348) (by simp))
  have x2 := (f2 _ (k2 (x + 348) (by simp))).trans x1
  have x3 := (f3 _ (k3 (x + 348) (by simp))).trans x2
  have x4 := (f4 _ (k4 (x + 348) (by simp))).trans x3
  have tn : ∀ n : Nat, n < 2 ^ 32 → (BitVec.ofNat 32 n).toNat = n := fun n h => by rw [BitVec.toNat_ofNat, Nat.mod_eq_of_lt h]
  have hx := (s (x + 348)).isLt
  simp only at a1 a2 a3 b3 a4 a5
  refine ⟨?_, ?_, ?_, ?_, ?_, ?_⟩
  · rw [f5 _ (k5 _ (by simp)), f4 _ (k4 _ (by simp)), f3 _ (k3 _ (by simp)), f2 _ (k2 _ (by simp)), a1]
  · rw [f5 _ (k5 _ (by simp)), f4 _ (k4 _ (by simp)), f3 _ (k3 _ (by simp)), a2, x1]
  · rw [f5 _ (k5 _ (by simp)), f4 _ (k4 _ (by simp)), a3, x2, quotE, if_neg (by decide), tn _ (by omega)]
  · rw [f5 _ (k5 _ (by simp)), f4 _ (k4 _ (by simp)), b3, x2, remE, if_neg (by decide), tn _ (by omega)]
  · rw [f5 _ (k5 _ (by simp)), a4, x3, quotE, if_neg (by decide), tn _ (by omega)]
  · rw [a5, x4, remE, if_neg (by decide), tn _ (by omega)]

/-- The products, quotients and remainders are there in the end. -/
theorem run (xv : BitVec 32) : ∃ m', Reaches ⟨mem xv, pE.e⟩ ⟨m', haltAt⟩ ∧ m' (o 0) = xv * 8 ∧ m' (o 1) = - xv ∧
    (m' (o 2)).toNat = xv.toNat / 10 ∧ (m' (o 3)).toNat = xv.toNat % 10 ∧ (m' (o 4)).toNat = xv.toNat / 8 ∧ (m' (o 5)).toNat = xv.toNat % 10 := by
  have hvv : ∀ a, L.cell a → ∀ m, L.view m a = m a := fun a ha m => Layout.view_at ha.2
  have hl := laid xv
  have fr : ∀ z, cellQ z = true ∧ L0.Free exBuf 9 z → L.view (mem xv) z = match (pinHoles X ++ holes).find? (fun r => r.1 == z) with | some r => r.2 | none => 0 := by
    intro z hz
    rw [hvv _ (cell hz.1)]
    exact (hl.free hz.2 (by decide) _)
  have hc : ∀ z ∈ [ad + 344, ad + 352], cellQ z = true ∧ L0.Free exBuf 9 z := by decide +kernel
  have e4 : L.view (mem xv) (x + 348) = xv := by
    rw [hvv _ (cell (by decide +kernel))]
    exact (hl.ok _).2 0 (show 0 < 9 by decide)
  obtain ⟨s', xe, g0, g1, g2, g3, g4, g5⟩ := does (L.view (mem xv)) ⟨(fr (ad + 344) (hc _ (by simp))).trans (by decide +kernel), (fr (ad + 352) (hc _ (by simp))).trans (by decide +kernel)⟩
  obtain ⟨m', rr, -, hv'⟩ := C25_structured wf xe code _ (ok xv) rfl
  have hm : ∀ i < 6, m' (o i) = s' (o i) := by
    have : ∀ i < 6, cellQ (o i) = true := by decide +kernel
    intro i hi
    rw [← hvv _ (cell (this i hi)) m', hv']
  rw [e4] at g0 g1 g2 g3 g4 g5
  refine ⟨m', rr, ?_, ?_, ?_, ?_, ?_, ?_⟩
  · rw [hm 0 (by decide), g0]
  · rw [hm 1 (by decide), g1, show (0xFFFFFFFF : BitVec 32) = -1 from rfl, BitVec.mul_neg]; simp
  · rw [hm 2 (by decide), g2]
  · rw [hm 3 (by decide), g3]
  · rw [hm 4 (by decide), g4]
  · rw [hm 5 (by decide), g5]

end ExMulDivFn

end Eud.SC
