import Verif.Ex.Kit
import Verif.Lib.NonSeq
/-
Example for C19 and C31 with `NonSeqCompute`.  In memory: `f(a, b, c)` that returns `a + 2 b + c`, and the program
  NonSeqCompute([(p, SetTo, x), (q, Add, x), (w, SetTo, y), (u, SetTo, 5)]); r << f(y, x, z)
-/

namespace Eud.SC

namespace ExNonSeq

def R : Nat := trigAt 0
def fa : Nat := exVar 0
def fb : Nat := exVar 1
def fc : Nat := exVar 2
def x : Nat := exVar 3
def y : Nat := exVar 4
def z : Nat := exVar 5
def p : Nat := exVar 6
def q : Nat := exVar 7
def w : Nat := exVar 8
def u : Nat := exVar 9
def r : Nat := exVar 10

def noS : Nat → (b k x n m : Nat) → Option Emitted := fun _ _ _ _ _ _ => none
def fB : Stmt := .asg [⟨R + 348, .set, .var fa⟩, ⟨R + 348, .add, .var fb⟩, ⟨R + 348, .add, .var fb⟩, ⟨R + 348, .add, .var fc⟩]
def fe : Nat := trigAt 1
def fE : Emitted := emitD fe noS (.base fB) 0 0 fe 2 0
def np : Nat := fendPtr [R] fe

/-! The orders `NonSeqCompute` chooses, objects being older the lower their address. -/

def key : NDst → Nat
  | .var v => v
  | .cell a => a

def l1 : List NPair := [⟨.var p, .set, .var x⟩, ⟨.var q, .add, .var x⟩, ⟨.var w, .set, .var y⟩, ⟨.var u, .set, .const 5⟩]
def o1 : List NPair := [⟨.var u, .set, .const 5⟩, ⟨.var p, .set, .var x⟩, ⟨.var w, .set, .var y⟩, ⟨.var q, .add, .var x⟩]
def rs : List (Nat × Nat) := [(R, r + 348)]
def args : List (Nat × Src) := [(fa, .var y), (fb, .var x), (fc, .var z)]
def o2 : List NPair := callPairs np haltAt rs args

theorem n1 : nonSeq key l1 = some o1 := by
  unfold nonSeq
  rw [show srcKeys l1 = [x, y] by decide]
  simp only []
  rw [if_neg (by decide), if_neg (by decide)]
  simp only [List.map_cons, List.map_nil]
  have f1 : l1.filter (fun p => p.srcVar == some x) = [⟨.var p, .set, .var x⟩, ⟨.var q, .add, .var x⟩] := rfl
  have f2 : l1.filter (fun p => p.srcVar == some y) = [⟨.var w, .set, .var y⟩] := rfl
  rw [f1, f2, List.mergeSort_of_pairwise (by simp; decide), List.mergeSort_of_pairwise (by simp)]
  rfl

theorem n2 : nonSeq key (callPairs np haltAt rs args) = some o2 := by
  unfold nonSeq
  rw [show srcKeys (callPairs np haltAt rs args) = [y, x, z] by decide]
  simp only []
  rw [if_neg (by decide), if_neg (by decide)]
  simp only [List.map_cons, List.map_nil]
  have f1 : (callPairs np haltAt rs args).filter (fun p => p.srcVar == some y) = [⟨.var fa, .set, .var y⟩] := rfl
  have f2 : (callPairs np haltAt rs args).filter (fun p => p.srcVar == some x) = [⟨.var fb, .set, .var x⟩] := rfl
  have f3 : (callPairs np haltAt rs args).filter (fun p => p.srcVar == some z) = [⟨.var fc, .set, .var z⟩] := rfl
  rw [f1, f2, f3, List.mergeSort_of_pairwise (by simp), List.mergeSort_of_pairwise (by simp), List.mergeSort_of_pairwise (by simp)]
  rfl

/-! The program -/

def nS : Nat → (b k x n m : Nat) → Option Emitted := fun _ _ _ x n m =>
  if x = haltAt then match emitAsg fE.e m (o2.map NPair.asg) with
    | some (e, Q) => some ⟨e, n, m + Q.length, [], Q, []⟩
    | none => none
  else none
def pES : ES := .seq (.base (.asg (o1.map NPair.asg))) (.site 0)
def pE : Emitted := emitD retAt nS pES 0 0 haltAt 10 10

/-! Memory -/

def parts : List (List SBlk) := [fendBlks [R] fe]
def sparts : List (List Blk) := [fE.seqs, pE.seqs]
def L : Layout := ⟨⟨parts.flatten, sparts.flatten, (List.range 11).map exVar⟩, [], []⟩
def vs (xv yv zv qv : BitVec 32) : List (BitVec 32) := [0, 0, 0, xv, yv, zv, 7, qv, 7, 7, 7]
def mem (xv yv zv qv : BitVec 32) : Mem := L.mem exBuf (vs xv yv zv qv) []

theorem laid (xv yv zv qv : BitVec 32) : L.Laid exBuf (vs xv yv zv qv) := Layout.laidB_spec (show L.laidB exBuf 11 = true by decide +kernel)
theorem wf : L.Wf := (laid 0 0 0 0).wf
def cellQ (x : Nat) : Bool := L.cellB x
theorem cell {x : Nat} (h : cellQ x = true) : L.cell x := (laid 0 0 0 0).cellB h
theorem vars : ∀ v ∈ (List.range 11).map exVar, v ∈ L.P.vars := fun _ h => h
theorem bp {l : List SBlk} (k : Nat) (h : parts[k]? = some l) : ∀ b ∈ l, b ∈ L.P.blks := fun _ hb => List.mem_flatten.2 ⟨l, List.mem_of_getElem? h, hb⟩
theorem sp {l : List Blk} (k : Nat) (h : sparts[k]? = some l) : ∀ b ∈ l, b ∈ L.P.seqs := fun _ hb => List.mem_flatten.2 ⟨l, List.mem_of_getElem? h, hb⟩
theorem into {E : Emitted} (hb : E.blks = []) (hs : ∃ j : Nat, sparts[j]? = some E.seqs) (h3 : E.rest = []) : E.Into L := by
  obtain ⟨j, e⟩ := hs
  exact ⟨by rw [hb]; simp, sp j e, by rw [h3]; simp⟩

/-! Code -/

theorem fC : FuncCode L fE.e fe np [R] fB :=
  ⟨⟨0, 0, emitD_code (S := noS) (f := fun _ => .skip) (es := .base fB) (fun j b k x n m E h => by simp [noS] at h) (by decide +kernel) (into (by decide +kernel) ⟨0, rfl⟩ (by decide +kernel))⟩,
    fendBlks_end (bp 0 rfl) (cell (by decide +kernel)) (fun v hv => by rcases List.mem_singleton.1 hv with rfl; exact ⟨cell (by decide +kernel), by decide⟩) (by decide)⟩

def argA : List (Nat × Src) := args.map fun a => (a.1 + 348, a.2)
theorem kOk : CallOk L np rs argA [R + 348] := callOkB_spec (fun x h => cell (x := x) h) vars (by decide +kernel)

def call : Stmt := .prim (CallRel L fe np haltAt fB rs argA)
def prog : Stmt := .seq (.asg (o1.map NPair.asg)) call

theorem code : Code L retAt 0 0 prog pE.e haltAt := by
  refine emitD_code (S := nS) (f := fun _ => call) (es := pES) ?_ (by decide +kernel) (into (by decide +kernel) ⟨1, rfl⟩ (by decide +kernel))
  intro j b k x' n m E h hi
  unfold nS at h
  split at h
  · rename_i hx
    subst hx
    split at h
    · rename_i hq
      cases h
      exact C31_call_nonseq wf (key := key) fC ⟨⟨o2, n2, 0, 0, 0, emitAsg_code hq hi.seqs _ _ _⟩, by decide⟩ kOk _ _ _
    · cases h
  · cases h

/-! What it does -/

theorem fW (s : Mem) : Wp L fB s fun o s2 => (o = .nrm ∨ o = .ret) ∧ s2 (R + 348) = s (fa + 348) + s (fb + 348) + s (fb + 348) + s (fc + 348) ∧ Only [R + 348] s s2 := by
  refine (Does.asg ?_ ?_ ?_ : Does L fB s fun s2 => s2 (R + 348) = s (fa + 348) + s (fb + 348) + s (fb + 348) + s (fc + 348) ∧ Only [R + 348] s s2).wp.mono fun o s2 h => ⟨.inl h.1, h.2⟩
  · intro g hg
    simp only [List.mem_cons, List.not_mem_nil, or_false] at hg
    rcases hg with rfl | rfl | rfl | rfl <;> exact cell (by decide +kernel)
  · intro g hg v hv
    simp only [List.mem_cons, List.not_mem_nil, or_false] at hg
    rcases hg with rfl | rfl | rfl | rfl <;> cases hv <;> exact vars _ (by decide)
  · simp only [runAsg, Src.valM, arith]
    have e1 : fb + 348 ≠ R + 348 := by decide
    have e2 : fc + 348 ≠ R + 348 := by decide
    refine ⟨by simp only [set_eq, set_ne e1, set_ne e2], fun z hz => ?_⟩
    have hz : z ≠ R + 348 := by simpa using hz
    simp only [set_ne hz]

theorem does (s : Mem) : Does L prog s fun s' => s' (p + 348) = s (x + 348) ∧ s' (q + 348) = s (q + 348) + s (x + 348) ∧ s' (w + 348) = s (y + 348) ∧
    s' (u + 348) = 5 ∧ s' (r + 348) = s (y + 348) + s (x + 348) + s (x + 348) + s (z + 348) := by
  have d1 := C19_nonseq (L := L) n1 (by
    intro p hp
    have : ∀ p ∈ l1, cellQ p.dst.addr = true := by decide +kernel
    exact cell (this p hp)) (by
    intro p hp v hv
    simp only [l1, List.mem_cons, List.not_mem_nil, or_false] at hp
    rcases hp with rfl | rfl | rfl | rfl <;> cases hv <;> exact vars _ (by decide)) (by decide) (by
    intro p hp q hq a v h1 h2
    simp only [l1, List.mem_cons, List.not_mem_nil, or_false] at hp
    rcases hp with rfl | rfl | rfl | rfl <;> cases h1) s
  refine Does.seq (d1.mono ?_)
  rintro s1 ⟨a1, a2⟩
  have b1 : s1 (p + 348) = s (x + 348) := a1 ⟨p + 348, .set, .var x⟩ (by simp [l1, NPair.asg, NDst.addr])
  have b2 : s1 (q + 348) = s (q + 348) + s (x + 348) := a1 ⟨q + 348, .add, .var x⟩ (by simp [l1, NPair.asg, NDst.addr])
  have b3 : s1 (w + 348) = s (y + 348) := a1 ⟨w + 348, .set, .var y⟩ (by simp [l1, NPair.asg, NDst.addr])
  have b4 : s1 (u + 348) = 5 := a1 ⟨u + 348, .set, .const 5⟩ (by simp [l1, NPair.asg, NDst.addr])
  have k : ∀ t ∈ [x + 348, y + 348, z + 348], ∀ g ∈ l1, t ≠ g.dst.addr := by decide
  have c : ∀ t ∈ [x + 348, y + 348, z + 348], s1 t = s t := fun t ht => a2 t (by
    intro g hg
    obtain ⟨d, hd, rfl⟩ := List.mem_map.1 hg
    exact k t ht d hd)
  have c1 := c (x + 348) (by simp)
  have c2 := c (y + 348) (by simp)
  have c3 := c (z + 348) (by simp)
  refine (C31_does wf kOk fC (by decide) (Q := fun s2 => s2 (R + 348) = s (y + 348) + s (x + 348) + s (x + 348) + s (z + 348)) (fun s2 h1 h2 => (fW s2).mono fun o s3 h => ⟨h.1, ?_, h.2.2⟩)).mono ?_
  · have g1 := h1 (fa + 348, .var y) (by simp [argA, args])
    have g2 := h1 (fb + 348, .var x) (by simp [argA, args])
    have g3 := h1 (fc + 348, .var z) (by simp [argA, args])
    simp only [Src.valM] at g1 g2 g3
    rw [h.2.1, g1, g2, g3, c1, c2, c3]
  · rintro s2 ⟨⟨s3, h1, h2, h3⟩, h4⟩
    have k2 : ∀ z ∈ [p + 348, q + 348, w + 348, u + 348], z ∉ callOnly np rs argA [R + 348] := by decide +kernel
    have g := fun z hz => h4 z (k2 z hz)
    refine ⟨by rw [g _ (by simp), b1], by rw [g _ (by simp), b2], by rw [g _ (by simp), b3], by rw [g _ (by simp), b4], ?_⟩
    rw [h2 (R, r + 348) (by simp [rs]), h1]

/-- For all values of the variables. -/
theorem run (xv yv zv qv : BitVec 32) : ∃ m', Reaches ⟨mem xv yv zv qv, pE.e⟩ ⟨m', haltAt⟩ ∧ m' (p + 348) = xv ∧ m' (q + 348) = qv + xv ∧ m' (w + 348) = yv ∧
    m' (u + 348) = 5 ∧ m' (r + 348) = yv + xv + xv + zv := by
  have hl := laid xv yv zv qv
  have vv : ∀ k : Nat, (h : k < 11) → L.view (mem xv yv zv qv) (exVar k + 348) = (vs xv yv zv qv)[k]'h := fun k h => by
    rw [hl.exView h]; exact (hl.ok _).2 k h
  obtain ⟨s', xe, g1, g2, g3, g4, g5⟩ := does (L.view (mem xv yv zv qv))
  obtain ⟨m', rr, -, hv'⟩ := C25_structured wf xe code _ (hl.ok _).1 rfl
  have hm : ∀ k : Nat, k < 11 → m' (exVar k + 348) = s' (exVar k + 348) := fun k h => by
    rw [← hv', (laid 0 0 0 0).exView h]
  refine ⟨m', rr, ?_, ?_, ?_, ?_, ?_⟩
  · exact (hm 6 (by decide)).trans (g1.trans (vv 3 (by decide)))
  · refine (hm 7 (by decide)).trans (g2.trans ?_)
    exact congr (congrArg _ (vv 7 (by decide))) (vv 3 (by decide))
  · exact (hm 8 (by decide)).trans (g3.trans (vv 4 (by decide)))
  · exact (hm 9 (by decide)).trans g4
  · refine (hm 10 (by decide)).trans (g5.trans ?_)
    rw [show L.view (mem xv yv zv qv) (x + 348) = xv from vv 3 (by decide), show L.view (mem xv yv zv qv) (y + 348) = yv from vv 4 (by decide),
      show L.view (mem xv yv zv qv) (z + 348) = zv from vv 5 (by decide)]

end ExNonSeq

end Eud.SC
