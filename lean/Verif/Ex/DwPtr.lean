import Verif.Ex.KitSw
import Verif.Ex.Read
import Verif.Ex.ByteWrite
import Verif.Ex.DwBreak
import Verif.Lib.DwPtr
/-
Example for C32: `o << f_dwread(x)` for a variable `x`, in memory, with the division, the switch and the shared reader.
-/

namespace Eud.SC

namespace ExDwPtr

def cpc : Nat := 0xE000000
def tbl : Nat := 0xE010000
/-- Two dwords in a row. -/
def d : Nat := 0xE030000
def rend : Nat := trigAt 199
def A (t : Nat) : Nat := trigAt (t + 200)
def x : Nat := exVar 3
def o : Nat := exVar 4 + 348
def noS : Nat → (b k x n m : Nat) → Option Emitted := fun _ _ _ _ _ _ => none
def L00 : Layout := ⟨⟨[], [], []⟩, [], []⟩

def D : Div4 := ⟨trigAt 1, trigAt 0, seqAt 0, trigAt 2, fendPtr [trigAt 0, trigAt 1] (trigAt 2)⟩
def eD : Emitted := emitD D.fe noS (.base (constDivPow (D.a + 348) (D.q + 348) 4)) 0 0 D.fe 3 0

def R : DwRd := ⟨exVar 0, exVar 1, exVar 2, trigAt 40, rend, cpc, seqAt 11, seqAt 10, trigAt 42, trigAt 41⟩
def nptr : Nat := fendPtr [R.fr] R.fend
def swEnd : Nat := trigAt 42

/-! The cases -/

def r0 : Option (Nat × List Blk) := emitAsg (A ExRead.t1) 20 (cpOps rend R.nxt (R.dw + 348) (.const 0) none)
def cst (i : Nat) : Stmt := .seq (.seqs ((dwHi R.dw i).map (bitTrig 0))) (.seq (.asg [⟨cpAddr, .add, .const 1⟩]) (.seq (.seqs ((dwLo R.dw i).map (bitTrig 0))) .brk))
def C1 : Emitted := emitD R.fend noS (.base (cst 1)) swEnd 0 0 60 30
def C2 : Emitted := emitD R.fend noS (.base (cst 2)) swEnd 0 0 100 40
def C3 : Emitted := emitD R.fend noS (.base (cst 3)) swEnd 0 0 140 50

/-! The function -/

def dS : Site := ⟨D.fs, D.fe, D.np, R.bk, constDivPow (D.a + 348) (D.q + 348) 4, [(D.q, cpAddr), (D.a, R.subp + 348)], [(D.a + 348, .var R.ptr)]⟩
def swS (_b _k x n m : Nat) : Option Emitted := if x = swEnd then some ⟨trigAt 50, n, m, [], [], []⟩ else none
def fSt : Nat → (b k x n m : Nat) → Option Emitted
  | 0 => callS dS
  | 1 => swS
  | _ => vpS cpc R.n1 [aMem (cpc + 344) .set (epd cpAddr)]
def fES : ES := .seq (.base (.asg [⟨R.ptr + 348, .add, .const (-0x58A364)⟩])) (.seq (.site 0) (.seq (.base (.asg [⟨R.dw + 348, .set, .const 0⟩])) (.seq (.site 1) (.seq (.site 2) (.base (retVar R.fr R.dw))))))
def F : Emitted := emitD R.fend fSt fES 0 0 R.fend 42 10

def c (L : Layout) : Site := ⟨F.e, R.fend, nptr, haltAt, R.body L D, [(R.fr, o)], [(R.ptr + 348, .var x)]⟩
def M : Emitted := emitD retAt (fun _ => callS (c L00)) (.site 0) 0 0 haltAt 195 60

/-! Memory -/

def swBlks : List SBlk := sw4Blks (R.subp + 348) (trigAt 50) (trigAt 51) (trigAt 52) (trigAt 53) (trigAt 54) tbl swEnd
def e0 : Nat := (r0.getD (0, [])).1
def tab : List (Nat × Nat) := sw4Tab tbl e0 C1.e C2.e C3.e
def parts : List (List SBlk) := [fendBlks [D.q, D.a] D.fe, eD.blks, fendBlks [R.fr] R.fend, F.blks, swBlks, C1.blks, C2.blks, C3.blks, rendBlk rend :: ExRead.tabBlks A rend 0 ExRead.T.trigs]
def sparts : List (List Blk) := [eD.seqs, F.seqs, (r0.getD (0, [])).2, C1.seqs, C2.seqs, C3.seqs, M.seqs]
def L0 : Layout := ⟨⟨parts.flatten, sparts.flatten, (List.range 5).map exVar⟩, [(trigAt 50, swEnd)], []⟩
def X : List (Nat × Nat) := pvPins cpc ++ tab
def L : Layout := (L0.pin X).hide (trigAt 54 + 4)

/-- The pointer is `p`; the dwords at `d` are `a` and `b`. -/
def vs (p : W) : List W := [0, 0, 0, p, 0]
def holes0 : List (Nat × W) := [(cpc + 348, 5), (cpc + 352, pmod .set)]
def holes (a b : W) : List (Nat × W) := holes0 ++ [(d, a), (d + 4, b)]
def mem (p a b : W) : Mem := L0.mem exBuf (vs p) (pinHoles X ++ holes a b)

theorem laid (p : W) : L0.Laid exBuf (vs p) := Layout.laidB_spec (show L0.laidB exBuf 5 = true by decide +kernel)
theorem pins : L0.pinB exBuf 5 X = true := by decide +kernel
theorem laid0 : L0.Laid exBuf (vs 0) := laid 0
theorem wf : L.Wf := (laid0.pinWf pins).hide (Layout.freeB_spec (by decide +kernel))
theorem ok (p a b : W) : L.Ok (mem p a b) := by
  have h := (laid p).pinOk pins (holes a b)
  exact ⟨h.prog, h.mask, h.rest⟩
def cellQ (x : Nat) : Bool := L0.pinCellB X x && x != trigAt 54 + 4
theorem cell {x : Nat} (h : cellQ x = true) : L.cell x := by
  simp only [cellQ, Bool.and_eq_true, bne_iff_ne, ne_eq] at h
  have hc := laid0.pinCellB h.1
  exact ⟨hc.1, by rw [L, Layout.hide_priv]; exact fun e => e.elim h.2 hc.2⟩
theorem pv : PVar L cpc := by
  have h1 : (∀ r ∈ pvPins cpc, r ∈ X) ∧ (∀ o ∈ [4, 344, 348, 352], L0.Free exBuf 5 (cpc + o) ∧ ∀ r ∈ X, cpc + o ≠ r.1 + 4) ∧ trigAt 54 + 4 ∉ [cpc + 4, cpc + 344, cpc + 348, cpc + 352] := by decide +kernel
  exact (PVar.pin laid0 h1.1 h1.2.1).hide h1.2.2
theorem vars : ∀ v ∈ (List.range 5).map exVar, v ∈ L.P.vars := fun _ h => h
theorem bp {l : List SBlk} (k : Nat) (h : parts[k]? = some l) : ∀ b ∈ l, b ∈ L.P.blks := fun _ hb => List.mem_flatten.2 ⟨l, List.mem_of_getElem? h, hb⟩
theorem sp {l : List Blk} (k : Nat) (h : sparts[k]? = some l) : ∀ b ∈ l, b ∈ L.P.seqs := fun _ hb => List.mem_flatten.2 ⟨l, List.mem_of_getElem? h, hb⟩
theorem into {E : Emitted} (i j : Nat) (h1 : parts[i]? = some E.blks) (h2 : sparts[j]? = some E.seqs) (h3 : E.rest = []) : E.Into L := ⟨bp i h1, sp j h2, by rw [h3]; simp⟩

/-! Code -/

theorem noSite {r : Nat} : ∀ (j b k x n m : Nat) (E : Emitted), noS j b k x n m = some E → E.Into L → Code L r b k .skip E.e x := fun _ _ _ _ _ _ _ h => by simp [noS] at h

theorem fD : FuncCode L D.fs D.fe D.np [D.q, D.a] (constDivPow (D.a + 348) (D.q + 348) 4) := by
  refine ⟨⟨0, 0, ?_⟩, fendBlks_end (bp 0 rfl) (cell (by decide +kernel)) (fun v hv => ?_) (by decide)⟩
  · rw [show D.fs = eD.e by decide +kernel]
    exact emitD_code (S := noS) (f := fun _ => .skip) (es := .base (constDivPow (D.a + 348) (D.q + 348) 4)) noSite (by decide +kernel) (into 1 0 rfl rfl (by decide +kernel))
  · have : ∀ v ∈ [D.q, D.a], cellQ (v + 4) = true ∧ v < 2 ^ 32 := by decide +kernel
    exact ⟨cell (this v hv).1, (this v hv).2⟩

theorem rtab : RdTab L ExRead.T A rend := by
  have hc : ∀ x ∈ [rend + 4, rend + 344, rend + 348, cpAddr], cellQ x = true := by decide +kernel
  refine ⟨fun t r h => ?_, bp 8 rfl _ (.head _), cell (hc _ (by simp)), cell (hc _ (by simp)), cell (hc _ (by simp)), cell (hc _ (by simp)), by decide⟩
  have := ExRead.tabBlks_mem (A := A) (rend := rend) (k := 0) h
  rw [Nat.zero_add] at this
  exact bp 8 rfl _ (.tail _ this)

theorem reader1 : Reader L rend (A ExRead.t1) 0xFFFFFFFF 0 := Reader.of (q := ExRead.q1) wf ExRead.base [ExRead.q2] (by decide) ExRead.req1 (by rw [show (RT.run RT.empty ExRead.base).run [ExRead.q2] = ExRead.T by decide +kernel]; exact rtab)

theorem rdok : RdCpOk L R.rend (R.dw + 348) (.const 0) := ⟨by decide, cell (by decide +kernel), by decide +kernel, by decide +kernel, fun _ h => by cases h⟩

theorem rok : R.Ok L D where
  hD := ⟨cell (by decide +kernel), cell (by decide +kernel), by decide, fD⟩
  hbk := by decide
  hp := vars _ (by decide)
  hd := vars _ (by decide)
  cp := cell (by decide +kernel)
  cd := cell (by decide +kernel)
  cf := cell (by decide +kernel)
  cc := cell (by decide +kernel)
  pc := pv
  rd := rdok
  hO := callOkB_spec (cell := cellQ) (fun _ => cell) vars (by decide +kernel)
  nd := by decide +kernel
  nD := by decide +kernel

theorem c0Code : Code L R.fend swEnd 0 (R.case L 0) e0 0 :=
  .seq (m := R.nxt) (C32_cp_code wf rtab reader1 rdok (by decide) (emitAsg_code (ExRead.some_getD (show r0.isSome = true by decide +kernel) _) (sp 2 rfl) R.fend swEnd 0)) .brk

theorem cCode {B : Stmt} {n m : Nat} (h : (emitG R.fend noS (.base B) swEnd 0 0 n m).isSome = true) (hi : (emitD R.fend noS (.base B) swEnd 0 0 n m).Into L) :
    Code L R.fend swEnd 0 B (emitD R.fend noS (.base B) swEnd 0 0 n m).e 0 :=
  emitD_code (S := noS) (f := fun _ => .skip) (es := .base B) noSite h hi

theorem c1Code : Code L R.fend swEnd 0 (R.case L 1) C1.e 0 := cCode (B := cst 1) (by decide +kernel) (into 5 3 rfl rfl (by decide +kernel))
theorem c2Code : Code L R.fend swEnd 0 (R.case L 2) C2.e 0 := cCode (B := cst 2) (by decide +kernel) (into 6 4 rfl rfl (by decide +kernel))
theorem c3Code : Code L R.fend swEnd 0 (R.case L 3) C3.e 0 := cCode (B := cst 3) (by decide +kernel) (into 7 5 rfl rfl (by decide +kernel))

theorem sw4_code {L : Layout} (hw : L.Wf) {x t0 e e0 e1 e2 e3 r : Nat} {B : Nat → Stmt} (h : ∀ s, L.Runs s t0 s (caseOf [(0, e0), (1, e1), (2, e2), (3, e3)] e (s x)))
    (h0 : Code L r e 0 (B 0) e0 0) (h1 : Code L r e 0 (B 1) e1 0) (h2 : Code L r e 0 (B 2) e2 0) (h3 : Code L r e 0 (B 3) e3 0) {b k r' : Nat} :
    Code L r' b k (.prim (SwRel L (fun s => s x) (cases0 4 B))) t0 e := by
  refine sw_code hw (val := fun s => s x) (cases := [(0, e0, B 0), (1, e1, B 1), (2, e2, B 2), (3, e3, B 3)]) h ?_
  intro c hc
  simp only [List.mem_cons, List.not_mem_nil, or_false] at hc
  rcases hc with rfl | rfl | rfl | rfl
  · exact ⟨0, r, 0, h0⟩
  · exact ⟨0, r, 0, h1⟩
  · exact ⟨0, r, 0, h2⟩
  · exact ⟨0, r, 0, h3⟩

theorem tabIn : ∀ r ∈ sw4Tab tbl e0 C1.e C2.e C3.e, r ∈ L.rest := by
  intro r h
  have h' : r ∈ tab := by unfold tab; exact h
  simp only [L, Layout.hide, Layout.pin, X, List.mem_append]
  exact Or.inr (Or.inr h')

theorem swRuns (s : Mem) : L.Runs s (trigAt 50) s (caseOf [(0, e0), (1, C1.e), (2, C2.e), (3, C3.e)] swEnd (s (R.subp + 348))) := by
  refine sw4_runs wf (cell (by decide +kernel)) (bp 4 rfl) (by simp [L, Layout.hide, Layout.pin, L0])
      tabIn (by decide) (by decide) (by simp [L, Layout.hide])
      (laid0.cellB (x := trigAt 54 + 4) (by decide +kernel)).1 (by decide) (by decide +kernel) s

theorem swCode {b k : Nat} : Code L R.fend b k (.prim (SwRel L (fun s => s (R.subp + 348)) (cases0 4 (R.case L)))) (trigAt 50) swEnd :=
  sw4_code wf swRuns c0Code c1Code c2Code c3Code

def fS : Nat → Stmt
  | 0 => dS.stmt L
  | 1 => .prim (SwRel L (fun s => s (R.subp + 348)) (cases0 4 (R.case L)))
  | _ => cpBack L R.cpc R.n1

theorem k0 {r b k x n m : Nat} {E : Emitted} (h : callS dS b k x n m = some E) (hi : E.Into L) : Code L r b k (dS.stmt L) E.e x := callS_code (c := dS) wf fD (by decide +kernel) h hi

theorem fCode : FuncCode L F.e R.fend nptr [R.fr] (R.body L D) := by
  refine ⟨⟨0, 0, emitD_code (S := fSt) (f := fS) (es := fES) ?_ (by decide +kernel) (into 3 1 rfl rfl (by decide +kernel))⟩, fendBlks_end (bp 2 rfl) (cell (by decide +kernel)) (fun v hv => ?_) (by simp)⟩
  · intro j b k x n m E h hi
    match j with
    | 0 => exact k0 h hi
    | 1 =>
      simp only [fSt, swS] at h
      split at h
      · rename_i hx
        cases h
        rw [hx]
        exact swCode
      · cases h
    | _ + 2 => exact vpS_code wf pv h hi
  · rw [List.mem_singleton.1 hv]
    exact ⟨cell (by decide +kernel), by decide⟩

theorem cs : callS (c L) = callS (c L00) := callS_body _ _ _ _ _ _ _ _
theorem code : Code L retAt 0 0 ((c L).stmt L) M.e haltAt :=
  emitD_code (S := fun _ => callS (c L00)) (f := fun _ => (c L).stmt L) (es := .site 0) (fun j b k x n m E h hi => callS_code (c := c L) wf fCode (by decide +kernel) (by rw [cs]; exact h) hi) (by decide +kernel)
    ⟨by rw [show (emitD retAt (fun _ => callS (c L00)) (.site 0) 0 0 haltAt 195 60).blks = [] by decide +kernel]; simp, sp 6 rfl,
     by rw [show (emitD retAt (fun _ => callS (c L00)) (.site 0) 0 0 haltAt 195 60).rest = [] by decide +kernel]; simp⟩

/-- The four bytes at any pointer into the two dwords, for all their contents; the cached current player is restored. -/
theorem run (p a b : W) (k : Nat) (hk : k ≤ 4) (hp : p.toNat = d + k) : ∃ m', Reaches ⟨mem p a b, M.e⟩ ⟨m', haltAt⟩ ∧ m' o = BitVec.ofNat 32 ((a.toNat + 2 ^ 32 * b.toNat) / 2 ^ (8 * k)) ∧ m' cpAddr = 5 := by
  have hl := laid p
  have hvv : ∀ a, L.cell a → ∀ m, L.view m a = m a := fun a ha m => Layout.view_at ha.2
  have fr : ∀ z, cellQ z = true ∧ L0.Free exBuf 5 z → L.view (mem p a b) z = match (pinHoles X ++ holes a b).find? (fun r => r.1 == z) with | some r => r.2 | none => 0 := by
    intro z hz
    rw [hvv _ (cell hz.1)]
    exact hl.free hz.2 (by decide) _
  have hc : ∀ z ∈ [cpc + 348, cpc + 352, d, d + 4], cellQ z = true ∧ L0.Free exBuf 5 z := by decide +kernel
  have fr0 : ∀ z w, (pinHoles X ++ holes0).find? (fun r => r.1 == z) = some (z, w) → cellQ z = true ∧ L0.Free exBuf 5 z → L.view (mem p a b) z = w := by
    intro z w h hz
    rw [fr z hz, holes, ← List.append_assoc, List.find?_append, h]
    rfl
  have i1 : L.view (mem p a b) (cpc + 348) = 5 := fr0 _ _ (by decide +kernel) (hc _ (by simp))
  have i2 : L.view (mem p a b) (cpc + 352) = pmod .set := fr0 _ _ (by decide +kernel) (hc _ (by simp))
  have i5 : L.view (mem p a b) d = a := by
    rw [fr _ (hc _ (by simp)), holes, ← List.append_assoc, List.find?_append, show (pinHoles X ++ holes0).find? (fun r => r.1 == d) = none by decide +kernel]
    rfl
  have i6 : L.view (mem p a b) (d + 4) = b := by
    rw [fr _ (hc _ (by simp)), holes, ← List.append_assoc, List.find?_append, show (pinHoles X ++ holes0).find? (fun r => r.1 == d + 4) = none by decide +kernel]
    rfl
  have i7 : L.view (mem p a b) (x + 348) = p := by rw [hvv _ (cell (by decide +kernel))]; exact (hl.ok _).2 3 (by simp [vs])
  have i8 : L.view (mem p a b) (rend + 348) = 0 := by
    rw [hvv _ (cell (by decide +kernel))]
    have := (hl.hole (show rendBlk rend ∈ L0.P.blks from bp 8 rfl _ (.head _)) (o := 348) (by decide) (by decide +kernel) (by decide) (pinHoles X ++ holes a b)).2
    rw [holes, ← List.append_assoc, List.find?_append, show (pinHoles X ++ holes0).find? (fun r => r.1 == (rendBlk rend).t + 348) = none by decide +kernel] at this
    rw [show List.find? (fun r => r.1 == (rendBlk rend).t + 348) [(d, a), (d + 4, b)] = none by
      rw [List.find?_cons_of_neg (by simp only [show (d == (rendBlk rend).t + 348) = false by decide +kernel]; simp), List.find?_cons_of_neg (by simp only [show (d + 4 == (rendBlk rend).t + 348) = false by decide +kernel]; simp)]; rfl] at this
    exact this
  have ho := ok p a b
  generalize hs : L.view (mem p a b) = s at *
  have own : ∀ z ∈ [d, d + 4], ¬ L.priv z ∧ z ∉ nptr :: (R.fr + 344) :: R.own D := by
    have : ∀ z ∈ [d, d + 4], cellQ z = true ∧ z ∉ nptr :: (R.fr + 344) :: R.own D := by decide +kernel
    exact fun z hz => ⟨(cell (this z hz).1).2, (this z hz).2⟩
  have ev : ((Src.var x).valM s).toNat = d + k := by rw [← hp, ← i7]; rfl
  have hdv : d = 0xE030000 := rfl
  have a1 : (d + k) / 4 * 4 = if k = 4 then d + 4 else d := by split <;> omega
  have a2 : (d + k) % 4 ≠ 0 → ((d + k) / 4 * 4 + 4) % 2 ^ 32 = d + 4 := by omega
  obtain ⟨s', xe, k1, k2, -⟩ := C32_dwread (R := R) (D := D) (x := .var x) (s := s) (o := o) (back := haltAt) wf rok (callOkB_spec (cell := cellQ) (fun _ => cell) vars (by decide +kernel)) fCode (by decide) i8 i2 (by decide +kernel)
    (by decide +kernel) ev.symm (by rw [a1]; split <;> exact own _ (by simp)) (fun hh => by rw [a2 hh]; exact own _ (by simp))
  obtain ⟨m', rr, -, hv'⟩ := C25_structured wf xe code _ ho hs
  have hm : ∀ z, cellQ z = true → m' z = s' z := fun z hz => by rw [← Layout.view_at (L := L) (m := m') (cell hz).2, hv']
  refine ⟨m', rr, ?_, by rw [hm _ (by decide +kernel), k2]; exact i1⟩
  rw [hm _ (by decide +kernel), k1]
  clear k1 k2 xe rr hv' hm own
  apply BitVec.eq_of_toNat_eq
  rw [BitVec.toNat_ofNat, BitVec.toNat_ofNat]
  have hal := a.isLt
  have hbl := b.isLt
  by_cases h0 : (d + k) % 4 = 0
  · rw [ld4_aligned _ (by omega) h0, a1]
    have : k = 0 ∨ k = 4 := by omega
    rcases this with rfl | rfl
    · rw [if_neg (by omega), i5]; omega
    · rw [if_pos rfl, i6]; omega
  · rw [ld4_cross _ (by omega) (show (d + k) % 4 = k by omega) (by omega), a2 h0, a1, if_neg (by omega), i5, i6]
    have : k = 1 ∨ k = 2 ∨ k = 3 := by omega
    rcases this with rfl | rfl | rfl <;> simp <;> omega

end ExDwPtr
end Eud.SC
