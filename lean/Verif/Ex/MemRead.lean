import Verif.Ex.Kit
import Verif.Lib.MemReadCp
/-
Examples for the bit-testing readers of C32: `f_dwepdread_epd(e)` in memory, and a generated reader with two results.
-/

namespace Eud.SC

namespace ExMemRead

def cpc : Nat := 0xE000000
/-- Result variables and end of `f_dwepdread_epd`. -/
def p : Nat := trigAt 0
def q : Nat := trigAt 1
def fend : Nat := trigAt 2
def nptr : Nat := fendPtr [p, q] fend
/-- Of the generated reader. -/
def g1 : Nat := trigAt 60
def g2 : Nat := trigAt 61
def gend : Nat := trigAt 62
def gptr : Nat := fendPtr [g1, g2] gend

def e : Nat := exVar 0
def o1 : Nat := exVar 1
def o2 : Nat := exVar 2
def o3 : Nat := exVar 3
def o4 : Nat := exVar 4
def d : Nat := exVar 5 + 348

/-- `f_readgen_epd(0xFF0, (7, lambda x: x >> 4), (0, lambda x: x * 3 if x >= 256 else 0))` -/
def gen : List GenRet := [⟨g1 + 348, 7, fun i => pow2 (i - 4)⟩, ⟨g2 + 348, 0, fun i => if 8 ≤ i then 3 * pow2 i else 0⟩]
def mask : W := 0xFF0

def dInits : List (Nat × W) := dwepdInits (p + 348) (q + 348)
def dItems : List (Nat × List (Nat × W)) := dwepdItems (p + 348) (q + 348)
/-- The unit that was drawn is 300. -/
def dBody (L : Layout) : Stmt := rdBody L cpc fend 300 dInits dItems
def gBody (L : Layout) : Stmt := rdBody L cpc gend 0 (genInits gen) (genItems (maskBits mask) gen)

def S : Nat → (b k x n m : Nat) → Option Emitted
  | 0 => vpS cpc fend [aMem (cpc + 344) .set (epd cpAddr)]
  | _ => vpS cpc gend [aMem (cpc + 344) .set (epd cpAddr)]

def F1 : Emitted := emitD fend S (.seq (.base (rdCore 300 dInits dItems)) (.site 0)) 0 0 fend 3 0
def F2 : Emitted := emitD gend S (.seq (.base (rdCore 0 (genInits gen) (genItems (maskBits mask) gen))) (.site 1)) 0 0 gend 63 0

def L00 : Layout := ⟨⟨[], [], []⟩, [], []⟩
def c1 (L : Layout) : Site := ⟨F1.e, fend, nptr, seqAt 0, dBody L, [(p, o1 + 348), (q, o2 + 348)], [(cpAddr, .var e)]⟩
def c2 (L : Layout) : Site := ⟨F2.e, gend, gptr, haltAt, gBody L, [(g1, o3 + 348), (g2, o4 + 348)], [(cpAddr, .var e)]⟩
def SM (L : Layout) : Nat → (b k x n m : Nat) → Option Emitted
  | 0 => callS (c1 L)
  | _ => callS (c2 L)
def M : Emitted := emitD retAt (SM L00) (.seq (.site 0) (.site 1)) 0 0 haltAt 0 0

def L0 : Layout := ⟨⟨fendBlks [p, q] fend ++ F1.blks ++ fendBlks [g1, g2] gend ++ F2.blks, M.seqs, (List.range 6).map exVar⟩, [], []⟩
def X : List (Nat × Nat) := pvPins cpc
def L : Layout := L0.pin X

def vs (x : W) : List W := [epd d, 1, 2, 3, 4, x]
/-- The cached player is 5. -/
def holes : List (Nat × W) := [(cpc + 348, 5), (cpc + 352, pmod .set)]
def mem (x : W) : Mem := L0.mem exBuf (vs x) (pinHoles X ++ holes)

theorem laid (x : W) : L0.Laid exBuf (vs x) := Layout.laidB_spec (show L0.laidB exBuf 6 = true by decide +kernel)
theorem pins (x : W) : L0.pinB exBuf (vs x).length X = true := show L0.pinB exBuf 6 X = true by decide +kernel
theorem wf : L.Wf := (laid 0).pinWf (pins 0)
theorem ok (x : W) : L.Ok (mem x) := (laid x).pinOk (pins x) holes
theorem pv : PVar L cpc := PVar.pin (laid 0) (fun _ h => h) (by decide +kernel)
theorem cell {x : Nat} (h : L0.pinCellB X x = true) : L.cell x := (laid 0).pinCellB h
theorem cellN {x : Nat} (h : L0.pinCellB X x = true) : ¬ L.priv x := (cell h).2

def fS : Nat → Stmt
  | 0 => cpBack L cpc fend
  | _ => cpBack L cpc gend

theorem sites (r : Nat) (j b k x n m : Nat) (E : Emitted) (h : S j b k x n m = some E) (hi : E.Into L) :
    Code L r b k (fS j) E.e x := by
  match j with
  | 0 => exact vpS_code wf pv h hi
  | _ + 1 => exact vpS_code wf pv h hi

theorem in1 : F1.Into L := .of_eq (s := []) (r := []) (fun x h => by simp only [L, Layout.pin, L0, List.mem_append]; exact Or.inl (Or.inl (Or.inr h))) (by decide +kernel) (by simp) (by decide +kernel) (by simp)
theorem in2 : F2.Into L := .of_eq (s := []) (r := []) (fun x h => by simp only [L, Layout.pin, L0, List.mem_append]; exact Or.inr h) (by decide +kernel) (by simp) (by decide +kernel) (by simp)
theorem inM : M.Into L := .of_eq (s := M.seqs) (r := []) (fun x h => by rw [show M.blks = [] by decide +kernel] at h; simp at h) rfl (fun _ h => h) (by decide +kernel) (by simp)

theorem f1 : FuncCode L F1.e fend nptr [p, q] (dBody L) := by
  refine ⟨⟨0, 0, emitD_code (sites fend) (by decide +kernel) in1⟩, fendBlks_end (fun x h => ?_) (cell (by decide +kernel)) ?_ (by decide)⟩
  · simp only [L, Layout.pin, L0, List.mem_append]; exact Or.inl (Or.inl (Or.inl h))
  · have h : ∀ v ∈ [p, q], L0.pinCellB X (v + 4) = true ∧ v < 2 ^ 32 := by decide +kernel
    exact fun v hv => ⟨cell (h v hv).1, (h v hv).2⟩

theorem f2 : FuncCode L F2.e gend gptr [g1, g2] (gBody L) := by
  refine ⟨⟨0, 0, emitD_code (sites gend) (by decide +kernel) in2⟩, fendBlks_end (fun x h => ?_) (cell (by decide +kernel)) ?_ (by decide)⟩
  · simp only [L, Layout.pin, L0, List.mem_append]; exact Or.inl (Or.inr h)
  · have h : ∀ v ∈ [g1, g2], L0.pinCellB X (v + 4) = true ∧ v < 2 ^ 32 := by decide +kernel
    exact fun v hv => ⟨cell (h v hv).1, (h v hv).2⟩

theorem code : Code L retAt 0 0 (.seq ((c1 L).stmt L) ((c2 L).stmt L)) M.e haltAt := by
  refine emitD_code (S := SM L00) (f := fun j => match j with | 0 => (c1 L).stmt L | _ => (c2 L).stmt L) (es := .seq (.site 0) (.site 1)) (n := 0) (m := 0) ?_ (by decide +kernel) inM
  intro j b k x n m E h hi
  match j with
  | 0 => exact callS_code (c := c1 L) wf f1 (by decide +kernel) h hi
  | _ + 1 => exact callS_code (c := c2 L) wf f2 (by decide +kernel) h hi

theorem ed : epdAddr (epd d) = d := by decide +kernel

theorem vars : ∀ v ∈ (List.range 6).map exVar, v ∈ L.P.vars := fun _ h => h

/-- Bits 4 to 11 of the dword are read: shifted down, and three times those from bit 8 on. -/
theorem gsum1 (x : W) : bitSum x (fun i => pow2 (i - 4)) (maskBits mask) = BitVec.ofNat 32 (x.toNat / 2 ^ 4 % 2 ^ 8) := by
  have h := bitSum_down x 4 8 (by omega)
  rw [← h, show maskBits mask = (List.range (4 + 8)).filter (fun i => decide (4 ≤ i)) from by decide +kernel]
  rw [← bitSum_filter x (fun i => if 4 ≤ i then pow2 (i - 4) else 0) (fun i => decide (4 ≤ i)) (l := List.range (4 + 8)) (by intro i _ hi; simp only [decide_eq_false_iff_not] at hi; rw [if_neg hi])]
  refine bitSum_congr x fun i hi => ?_
  simp only [List.mem_filter, decide_eq_true_eq] at hi
  rw [if_pos hi.2]

/-- The machine. -/
theorem run (x : W) : ∃ m', Reaches ⟨mem x, M.e⟩ ⟨m', haltAt⟩ ∧ m' (o1 + 348) = x ∧ m' (o2 + 348) = epd x.toNat ∧ m' (o3 + 348) = 7 + BitVec.ofNat 32 (x.toNat / 16 % 256) ∧ m' cpAddr = 5 ∧ m' d = x := by
  have hl := laid x
  have hcd : ∀ y ∈ [cpc + 348, cpc + 352, e + 348, d, o1 + 348, o2 + 348, o3 + 348, cpAddr], L0.pinCellB X y = true := by decide +kernel
  have hc : ∀ y ∈ [cpc + 348, cpc + 352, e + 348, d, o1 + 348, o2 + 348, o3 + 348, cpAddr], ∀ m, L.view m y = m y := fun y hy m => Layout.view_at (cellN (hcd y hy))
  have fr : ∀ y ∈ [cpc + 348, cpc + 352], L0.Free exBuf 6 y := by decide +kernel
  have i352 : L.view (mem x) (cpc + 352) = pmod .set := by rw [hc _ (by simp)]; exact (hl.free (fr _ (by simp)) (by decide) _).trans (by decide +kernel)
  have i348 : L.view (mem x) (cpc + 348) = 5 := by rw [hc _ (by simp)]; exact (hl.free (fr _ (by simp)) (by decide) _).trans (by decide +kernel)
  have ie : L.view (mem x) (e + 348) = epd d := by rw [hc _ (by simp)]; exact (hl.ok _).2 0 (by simp [vs])
  have id' : L.view (mem x) d = x := by rw [hc _ (by simp)]; exact (hl.ok _).2 5 (by simp [vs])
  obtain ⟨s1, x1, e1, e2, -, k1⟩ := C32_dwepdread (s := L.view (mem x)) (src := .var e) (o1 := o1 + 348) (o2 := o2 + 348) (back := seqAt 0) wf
    (cell (by decide +kernel)) ⟨cell (by decide +kernel), cell (by decide +kernel)⟩ (by decide) ⟨pv, by decide, by decide⟩ (by decide)
    (callOkB_spec (fun _ => cell) vars (by decide +kernel)) f1 (by decide) i352 (by decide) (by decide) (by simp only [Src.valM, ie, ed]; exact cellN (by decide +kernel))
    (by simp only [Src.valM, ie, ed]; decide +kernel)
  simp only [Src.valM, ie, ed, id'] at e1 e2
  have h352 : s1 (cpc + 352) = pmod .set := by rw [k1 _ (by decide +kernel), i352]
  have he : s1 (e + 348) = epd d := by rw [k1 _ (by decide +kernel), ie]
  obtain ⟨s2, x2, e3, ec, k2⟩ := C32_readgen (s := s1) (src := .var e) (mask := mask) (rs := gen) (outs := [(g1, o3 + 348), (g2, o4 + 348)]) (back := haltAt) wf
    (cell (by decide +kernel)) (by decide) (by
      have h : ∀ x ∈ gen.map GenRet.at_, L0.pinCellB X x = true ∧ x ≠ cpAddr := by decide +kernel
      exact fun r hr => ⟨cell (h _ (List.mem_map_of_mem hr)).1, (h _ (List.mem_map_of_mem hr)).2⟩) ⟨pv, by decide, by decide⟩ (by decide)
    (callOkB_spec (fun _ => cell) vars (by decide +kernel)) f2 (by decide) h352 (by decide) (by decide) (by simp only [Src.valM, he, ed]; exact cellN (by decide +kernel))
    (by simp only [Src.valM, he, ed]; decide +kernel)
  have e4 := e3 (g1, o3 + 348) (by simp) ⟨g1 + 348, 7, fun i => pow2 (i - 4)⟩ (by simp [gen]) rfl
  simp only [Src.valM, he, ed, k1 d (by decide +kernel), id', gsum1] at e4
  obtain ⟨m', rr, -, hv⟩ := C25_structured wf (.seqN x1 x2) code _ (ok x) rfl
  have hm : ∀ y ∈ [cpc + 348, cpc + 352, e + 348, d, o1 + 348, o2 + 348, o3 + 348, cpAddr], m' y = s2 y := fun y hy => by rw [← hv, hc y hy]
  refine ⟨m', rr, ?_, ?_, ?_, ?_, ?_⟩
  · rw [hm _ (by simp), k2 _ (by decide +kernel), e1]
  · rw [hm _ (by simp), k2 _ (by decide +kernel), e2]
  · rw [hm _ (by simp), e4]
  · rw [hm _ (by simp), ec, k1 _ (by decide +kernel), i348]
  · rw [hm _ (by simp), k2 _ (by decide +kernel), k1 _ (by decide +kernel), id']

end ExMemRead

end Eud.SC
