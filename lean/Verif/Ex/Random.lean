import Verif.Ex.Kit
import Verif.Ex.ByteWrite
import Verif.Lib.Random
/-
Example for C56: `f_srand(x); a = f_rand(); b = f_dwrand(); c = f_getseed()` in memory, for all values of `x`.
-/

namespace Eud.SC

namespace ExRandom

def noS : Nat → (b k x n m : Nat) → Option Emitted := fun _ _ _ _ _ _ => none
def x : Nat := exVar 0
def o (i : Nat) : Nat := exVar (1 + i) + 348
def L00 : Layout := ⟨⟨[], [], []⟩, [], []⟩

/-! The functions. -/

def mB : Stmt := mulFn (exVar 6) (trigAt 0) (exVar 7) 1103515245
def mFe : Nat := trigAt 1
def mE : Emitted := emitD mFe noS (.base mB) 0 0 mFe 2 0

def rFe : Nat := trigAt 41
def dFe : Nat := trigAt 81
/-- The places, before it is known where the multiplications go on. -/
def R0 : Rnd := ⟨exVar 4, trigAt 40, rFe, fendPtr [trigAt 40] rFe, trigAt 80, dFe, fendPtr [trigAt 80] dFe, exVar 5, exVar 6, trigAt 0, exVar 7, mFe, fendPtr [trigAt 0] mFe, mE.e, 0, 0, 0⟩
def t1 : Stmt := .seq (.asg [⟨R0.seed + 348, .add, .const 12345⟩, ⟨R0.fr + 348, .set, .var R0.seed⟩]) (iopS (R0.fr + 348) (.shr 16))
def e1 : Emitted := emitD rFe noS (.base t1) 0 0 rFe 42 20
def t3 : Stmt := .seq (.trig [] [aMem (R0.seed + 348) .add 12345, aMemX (R0.d + 348) .set 0 0xFFFF]) (.seq (.seqs (R0.low.map (cBitTrig (R0.seed + 348)))) (retVar R0.dfr R0.d))
def e3 : Emitted := emitD dFe noS (.base t3) 0 0 dFe 82 30
def R1 : Rnd := { R0 with b1 := e1.e, b3 := e3.e }
def mS (R : Rnd) (back : Nat) (v q : Nat) : Site := ⟨R.mstart, R.mfend, R.mnptr, back, mB, [(R.mr, q)], [(R.ma + 348, .var v)]⟩
def t2 : ES := .seq (.base (.asg [⟨R0.d + 348, .add, .const 12345⟩])) (.seq (.site 1) (.base t3))
def e2 : Emitted := emitD dFe (fun _ => callS (mS R1 R1.b3 R1.d (R1.seed + 348))) t2 0 0 dFe 82 30
def R : Rnd := { R1 with b2 := e2.e }
def rES : ES := .seq (.site 0) (.base t1)
def rE : Emitted := emitD rFe (fun _ => callS (mS R R.b1 R.seed (R.seed + 348))) rES 0 0 rFe 42 20
def dES : ES := .seq (.site 0) t2
def dSt : Nat → Site
  | 0 => mS R R.b2 R.seed (R.d + 348)
  | _ => mS R R.b3 R.d (R.seed + 348)
def dE : Emitted := emitD dFe (fun j => callS (dSt j)) dES 0 0 dFe 82 30

/-! The program. -/

def pe3 : Emitted := emitD retAt noS (.base (.asg [⟨o 2, .set, .var R.seed⟩])) 0 0 haltAt 130 60
def dS (L : Layout) : Site := ⟨dE.e, R.dfend, R.dnptr, pe3.e, R.dwrandBody L, [(R.dfr, o 1)], []⟩
def pe2 : Emitted := emitD retAt (fun _ => callS (dS L00)) (.seq (.site 0) (.base (.asg [⟨o 2, .set, .var R.seed⟩]))) 0 0 haltAt 130 60
def rS (L : Layout) : Site := ⟨rE.e, R.fend, R.nptr, pe2.e, R.randBody L, [(R.fr, o 0)], []⟩
def pS (L : Layout) : Nat → (b k x n m : Nat) → Option Emitted
  | 0 => callS (rS L)
  | _ => callS (dS L)
def pES : ES := .seq (.base (.asg [⟨R.seed + 348, .set, .var x⟩])) (.seq (.site 0) (.seq (.site 1) (.seq (.base (.asg [⟨o 2, .set, .var R.seed⟩])) (.base .skip))))
def M : Emitted := emitD retAt (pS L00) pES 0 0 haltAt 130 60

/-! Memory. -/

def parts : List (List SBlk) := [fendBlks [trigAt 0] mFe, mE.blks, fendBlks [trigAt 40] rFe, rE.blks, fendBlks [trigAt 80] dFe, dE.blks, M.blks]
def sparts : List (List Blk) := [mE.seqs, rE.seqs, dE.seqs, M.seqs]
def L : Layout := ⟨⟨parts.flatten, sparts.flatten, (List.range 8).map exVar⟩, [], []⟩

def vs (xv : BitVec 32) : List (BitVec 32) := [xv, 7, 7, 7, 5, 6, 0, 0]
def mem (xv : BitVec 32) : Mem := L.mem exBuf (vs xv) []

theorem laid (xv : BitVec 32) : L.Laid exBuf (vs xv) := Layout.laidB_spec (show L.laidB exBuf 8 = true by decide +kernel)
theorem laid0 : L.Laid exBuf (vs 0) := laid 0
theorem wf : L.Wf := laid0.wf
theorem cell {x : Nat} (h : L.cellB x = true) : L.cell x := laid0.cellB h
theorem vars : ∀ v ∈ (List.range 8).map exVar, v ∈ L.P.vars := fun _ h => h
theorem bp {l : List SBlk} (k : Nat) (h : parts[k]? = some l) : ∀ b ∈ l, b ∈ L.P.blks := fun _ hb => List.mem_flatten.2 ⟨l, List.mem_of_getElem? h, hb⟩
theorem sp {l : List Blk} (k : Nat) (h : sparts[k]? = some l) : ∀ b ∈ l, b ∈ L.P.seqs := fun _ hb => List.mem_flatten.2 ⟨l, List.mem_of_getElem? h, hb⟩
theorem into {E : Emitted} (i j : Nat) (h1 : parts[i]? = some E.blks) (h2 : sparts[j]? = some E.seqs) (h3 : E.rest = []) : E.Into L := ⟨bp i h1, sp j h2, by rw [h3]; simp⟩

/-! Code. -/

theorem fe {rs : List Nat} {fe : Nat} (hb : ∀ b ∈ fendBlks rs fe, b ∈ L.P.blks) (hc : L.cellB (fendPtr rs fe) = true) (hv : ∀ v ∈ rs, L.cellB (v + 4) = true ∧ v < 2 ^ 32) (hl : rs.Nodup) :
    FuncEnd L fe (fendPtr rs fe) rs := fendBlks_end hb (cell hc) (fun v hv' => ⟨cell (hv v hv').1, (hv v hv').2⟩) hl

theorem mC : FuncCode L mE.e mFe (fendPtr [trigAt 0] mFe) [trigAt 0] mB :=
  ⟨⟨0, 0, emitD_code (S := noS) (f := fun _ => .skip) (es := .base mB) (fun j b k x n m E h => by simp [noS] at h) (by decide +kernel) (into 1 0 rfl rfl (by decide +kernel))⟩,
    fe (bp 0 rfl) (by decide +kernel) (by decide +kernel) (by decide)⟩

theorem mCode {back v q r b k x n m : Nat} {E : Emitted} (h : callS (mS R back v q) b k x n m = some E) (hi : E.Into L) : Code L r b k (R.mul L back (.var v) q) E.e x :=
  callS_code (c := mS R back v q) wf mC (by intro r hr; simp only [mS, List.mem_singleton] at hr ⊢; subst hr; show R.mr + 4 ≠ R.mnptr; decide +kernel) h hi

theorem rCode : FuncCode L rE.e R.fend R.nptr [R.fr] (R.randBody L) :=
  ⟨⟨0, 0, emitD_code (S := fun _ => callS (mS R R.b1 R.seed (R.seed + 348))) (f := fun _ => R.mul L R.b1 (.var R.seed) (R.seed + 348)) (es := rES) (fun j b k x n m E h hi => mCode h hi) (by decide +kernel) (into 3 1 rfl rfl (by decide +kernel))⟩,
    fe (bp 2 rfl) (by decide +kernel) (by decide +kernel) (by decide)⟩

def dF : Nat → Stmt
  | 0 => R.mul L R.b2 (.var R.seed) (R.d + 348)
  | _ => R.mul L R.b3 (.var R.d) (R.seed + 348)
theorem d0 : dSt 0 = mS R R.b2 R.seed (R.d + 348) := rfl
theorem d1 (l : Nat) : dSt (l + 1) = mS R R.b3 R.d (R.seed + 348) := rfl
theorem f0 : dF 0 = R.mul L R.b2 (.var R.seed) (R.d + 348) := rfl
theorem f1 (l : Nat) : dF (l + 1) = R.mul L R.b3 (.var R.d) (R.seed + 348) := rfl

theorem dCode : FuncCode L dE.e R.dfend R.dnptr [R.dfr] (R.dwrandBody L) := by
  refine ⟨⟨0, 0, emitD_code (S := fun j => callS (dSt j)) (f := dF) (es := dES) ?_ (by decide +kernel) (into 5 2 rfl rfl (by decide +kernel))⟩,
    fe (bp 4 rfl) (by decide +kernel) (by decide +kernel) (by decide)⟩
  intro j b k x n m E h hi
  match j with
  | 0 => rw [d0] at h; rw [f0]; exact mCode h hi
  | l + 1 => rw [d1] at h; rw [f1]; exact mCode h hi

def ops : List ROp := [.srand (.var x), .rand (o 0) pe2.e, .dwrand (o 1) pe3.e, .getseed (o 2)]
def pF : Nat → Stmt
  | 0 => (rS L).stmt L
  | _ => (dS L).stmt L
theorem callS_body (fs fe np bk : Nat) (b b' : Stmt) (rs : List (Nat × Nat)) (args : List (Nat × Src)) : callS ⟨fs, fe, np, bk, b, rs, args⟩ = callS ⟨fs, fe, np, bk, b', rs, args⟩ := rfl
theorem cr : callS (rS L) = callS (rS L00) := callS_body _ _ _ _ _ _ _ _
theorem cd : callS (dS L) = callS (dS L00) := callS_body _ _ _ _ _ _ _ _
theorem p0 : pS L00 0 = callS (rS L00) := rfl
theorem p1 (l : Nat) : pS L00 (l + 1) = callS (dS L00) := rfl
theorem q0 : pF 0 = (rS L).stmt L := rfl
theorem q1 (l : Nat) : pF (l + 1) = (dS L).stmt L := rfl

theorem code : Code L retAt 0 0 (.seqs (ops.map (R.stmt L))) M.e haltAt := by
  have h : Code L retAt 0 0 (pES.stmt pF) M.e haltAt := by
    refine emitD_code (S := pS L00) (f := pF) (es := pES) ?_ (by decide +kernel) (into 6 3 rfl rfl (by decide +kernel))
    intro l b k x n m E h hi
    match l with
    | 0 => rw [p0] at h; rw [q0]; exact callS_code (c := rS L) wf rCode (by decide +kernel) (by rw [cr]; exact h) hi
    | l + 1 => rw [p1] at h; rw [q1]; exact callS_code (c := dS L) wf dCode (by decide +kernel) (by rw [cd]; exact h) hi
  exact h

/-! The result. -/

theorem rok : R.Ok L where
  hs := vars _ (by decide)
  hd := vars _ (by decide)
  cs := cell (by decide +kernel)
  cd := cell (by decide +kernel)
  cf := cell (by decide +kernel)
  cg := cell (by decide +kernel)
  ca := cell (by decide +kernel)
  cr := cell (by decide +kernel)
  nm := by decide
  hF := mC
  k1 := callOkB_spec (cell := L.cellB) (fun x h => cell h) vars (by decide +kernel)
  k2 := callOkB_spec (cell := L.cellB) (fun x h => cell h) vars (by decide +kernel)
  k3 := callOkB_spec (cell := L.cellB) (fun x h => cell h) vars (by decide +kernel)
  lb := by decide +kernel
  nd := by decide +kernel

theorem opsOk : ∀ op ∈ ops, R.OpOk L op := by
  intro op h
  simp only [ops, List.mem_cons, List.not_mem_nil, or_false] at h
  rcases h with rfl | rfl | rfl | rfl
  · intro v hv
    cases hv
    exact ⟨vars _ (by decide), by decide +kernel⟩
  · exact ⟨by decide +kernel, by decide +kernel, callOkB_spec (cell := L.cellB) (fun x h => cell h) vars (by decide +kernel)⟩
  · exact ⟨by decide +kernel, by decide +kernel, callOkB_spec (cell := L.cellB) (fun x h => cell h) vars (by decide +kernel)⟩
  · exact ⟨cell (by decide +kernel), by decide +kernel⟩

/-- For all seeds. -/
theorem run (xv : BitVec 32) : ∃ m', Reaches ⟨mem xv, M.e⟩ ⟨m', haltAt⟩ ∧ (m' (o 0)).toNat = (lcg xv).toNat / 65536 ∧
    (m' (o 1)).toNat = (lcg (lcg xv)).toNat / 65536 * 65536 + (lcg (lcg (lcg xv))).toNat / 65536 ∧ m' (o 2) = lcg (lcg (lcg xv)) := by
  have hl := laid xv
  have hvv : ∀ a, L.cell a → ∀ m, L.view m a = m a := fun a ha m => Layout.view_at ha.2
  have ix : L.view (mem xv) (x + 348) = xv := hl.exVal (i := 0) (by simp [vs]) []
  obtain ⟨s', xe, -, g⟩ := Rnd.C56_history wf rok rCode dCode ops (σ := ⟨L.view (mem xv) (R.seed + 348), L.view (mem xv)⟩) opsOk ⟨rfl, fun _ _ => rfl⟩
  obtain ⟨m', rr, -, hv'⟩ := C25_structured wf xe code _ (hl.ok []).1 rfl
  have hm : ∀ i < 3, m' (o i) = s' (o i) := by
    have : ∀ i < 3, L.cellB (o i) = true := by decide +kernel
    intro i hi
    rw [← hvv _ (cell (this i hi)) m', hv']
  have ho : ∀ i < 3, o i ∉ R.own := by decide +kernel
  have n01 : o 0 ≠ o 1 := by decide
  have n02 : o 0 ≠ o 2 := by decide
  have n12 : o 1 ≠ o 2 := by decide
  have tn : ∀ n : Nat, n < 2 ^ 32 → (BitVec.ofNat 32 n).toNat = n := fun n h => by rw [BitVec.toNat_ofNat, Nat.mod_eq_of_lt h]
  have k1 := (lcg xv).isLt
  have k2 := (lcg (lcg xv)).isLt
  have k3 := (lcg (lcg (lcg xv))).isLt
  refine ⟨m', rr, ?_, ?_, ?_⟩
  · rw [hm 0 (by decide), g _ (ho 0 (by decide))]
    simp only [ops, List.foldl, ROp.spec, Src.valM, get_set, if_neg n01, if_neg n02, if_true, ix]
    exact tn _ (by omega)
  · rw [hm 1 (by decide), g _ (ho 1 (by decide))]
    simp only [ops, List.foldl, ROp.spec, Src.valM, get_set, if_neg n12, if_true, ix]
    exact tn _ (by omega)
  · rw [hm 2 (by decide), g _ (ho 2 (by decide))]
    simp only [ops, List.foldl, ROp.spec, Src.valM, get_set, if_true, ix]

end ExRandom
end Eud.SC
