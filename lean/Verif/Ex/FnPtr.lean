import Verif.Ex.Kit
import Verif.Lib.FnPtr
/-
Example for C31 with function pointers.  In memory: `f(a)` that returns `a + 1`, `g(a)` that sets a global variable, a pointer `p` to
`f` and a pointer `q` to `g`, and the program
  p << f; q << g; q(x); g(y); r0 << f(x); r1 << p(y); r2 << f(x)
All calls but the last work; the last one never gets to the end of the program, because the call through `p` redirected the end of `f`.
-/

namespace Eud.SC

namespace ExFnPtr

def A : Nat := 0xE000000
def R : Nat := 0xE001000
def fa : Nat := exVar 0
def ga : Nat := exVar 1
def RS : Nat := exVar 2
def x : Nat := exVar 3
def y : Nat := exVar 4
def pf : Nat := exVar 5
def pe : Nat := exVar 6
def qf : Nat := exVar 7
def qe : Nat := exVar 8
def glob : Nat := exVar 9
def r0 : Nat := exVar 10
def r1 : Nat := exVar 11
def r2 : Nat := exVar 12

def noS : Nat → (b k x n m : Nat) → Option Emitted := fun _ _ _ _ _ _ => none
def fB : Stmt := .asg [⟨R + 348, .set, .var fa⟩, ⟨R + 348, .add, .const 1⟩]
def fE : Emitted := emitD (trigAt 1) noS (.base fB) 0 0 (trigAt 1) 3 0
def gB : Stmt := .asg [⟨glob + 348, .set, .var ga⟩]
def gE : Emitted := emitD (trigAt 2) noS (.base gB) 0 0 (trigAt 2) 3 4

def F : PFn := ⟨trigAt 10, trigAt 11, trigAt 12, trigAt 13, fE.e, trigAt 1, [⟨A, fa + 348, trigAt 11⟩], [⟨R, RS + 348, trigAt 13⟩], fB, [R + 348]⟩
def G : PFn := ⟨trigAt 20, trigAt 21, trigAt 22, trigAt 22, gE.e, trigAt 2, [⟨A, ga + 348, trigAt 21⟩], [], gB, [glob + 348]⟩

def vpB (t v d n : Nat) : SBlk := ⟨t, ⟨[], (qAssign v d ++ [aMem (v + 4) .set (BitVec.ofNat 32 n)]).map PA.a⟩, some v, false⟩
def jmB (H : PFn) : SBlk := ⟨H.cm, ⟨[], [aMem (H.fe + 4) .set (BitVec.ofNat 32 H.ck)].map PA.a⟩, some H.fs, false⟩
def feB (H : PFn) : SBlk := ⟨H.fe, ⟨[], retActs H.fr⟩, none, false⟩
def ceB (H : PFn) : SBlk := ⟨H.ce, ⟨[], []⟩, none, false⟩
def bF : List SBlk := [feB F, feB G, vpB (trigAt 10) A (fa + 348) (trigAt 11), jmB F, vpB (trigAt 12) R (RS + 348) (trigAt 13), ceB F, vpB (trigAt 20) A (ga + 348) (trigAt 21), jmB G, ceB G]

/-! The program -/

/-- The trigger `t` of a call through a pointer. -/
def jmpS (t back : Nat) (_b _k x n m : Nat) : Option Emitted :=
  if x = back ∧ t = trigAt n ∧ x < 2 ^ 32 then some ⟨trigAt n, n + 1, m, [⟨t, ⟨[], [aGo (t + 328) back].map PA.a⟩, none, false⟩], [], []⟩ else none

/-- A direct call. -/
def dirS (H : PFn) (np back : Nat) (rs : List (Nat × Nat)) (args : List (Nat × Src)) (_b _k x n m : Nat) : Option Emitted :=
  if x = back ∧ x < 2 ^ 32 then match emitAsg H.fs m (callAsg np x rs args) with
    | some (e, Q) => some ⟨e, n, m + Q.length, [], Q, []⟩
    | none => none
  else none

def Pc : PCall := ⟨trigAt 30, seqAt 11, pf, pe, [(A + 348, .var y)], [(r1 + 348, RS)]⟩
def Qc : PCall := ⟨trigAt 31, seqAt 15, qf, qe, [(A + 348, .var x)], []⟩

def esP (C : PCall) (j : Nat) : ES := .seq (.base (.asg C.asgA)) (.seq (.base (.asg C.asgP)) (.seq (.site j) (.seq (.base (.asg C.asgR)) (.base .skip))))
def setS : Stmt := .asg [⟨pf + 348, .set, .const (BitVec.ofNat 32 F.cs)⟩, ⟨pe + 348, .set, .const (epd (F.ce + 4))⟩, ⟨qf + 348, .set, .const (BitVec.ofNat 32 G.cs)⟩, ⟨qe + 348, .set, .const (epd (G.ce + 4))⟩]
def mS : Nat → (b k x n m : Nat) → Option Emitted
  | 0 => jmpS Pc.t Pc.back
  | 1 => jmpS Qc.t Qc.back
  | 2 => dirS G (G.fe + 4) (seqAt 14) [] [(ga + 348, .var y)]
  | 3 => dirS F F.nptr (seqAt 13) [(R, r0 + 348)] [(fa + 348, .var x)]
  | _ => dirS F F.nptr haltAt [(R, r2 + 348)] [(fa + 348, .var x)]
/-- Everything before the last call. -/
def esM : ES := .seq (.base setS) (.seq (esP Qc 1) (.seq (.site 2) (.seq (.site 3) (esP Pc 0))))
def eM : Emitted := emitD retAt mS esM 0 0 (seqAt 10) 30 11
def eL : Emitted := emitD retAt mS (.site 4) 0 0 haltAt 40 10
/-- The results of the call through `p`. -/
def eR : Emitted := emitD retAt mS (.base (.asg Pc.asgR)) 0 0 (seqAt 10) 30 11

/-! Memory -/

def parts : List (List SBlk) := [bF, eM.blks]
def sparts : List (List Blk) := [fE.seqs, gE.seqs, eL.seqs, eM.seqs]
def L0 : Layout := ⟨⟨parts.flatten, sparts.flatten, (List.range 13).map exVar⟩, [], []⟩
def X : List (Nat × Nat) := pvPins A ++ pvPins R
def L : Layout := L0.pin X

def vs (xv yv : BitVec 32) : List (BitVec 32) := [0, 0, 0, xv, yv, 0, 0, 0, 0, 0, 0, 0, 7]
def holes : List (Nat × BitVec 32) := [(A + 352, pmod .set), (R + 352, pmod .set), (F.fe + 4, BitVec.ofNat 32 R)]
def mem (xv yv : BitVec 32) : Mem := L0.mem exBuf (vs xv yv) (pinHoles X ++ holes)

theorem laid (xv yv : BitVec 32) : L0.Laid exBuf (vs xv yv) := Layout.laidB_spec (show L0.laidB exBuf 13 = true by decide +kernel)
theorem pins : L0.pinB exBuf 13 X = true := by decide +kernel
theorem laid0 : L0.Laid exBuf (vs 0 0) := laid 0 0
theorem wf : L.Wf := laid0.pinWf pins
theorem ok (xv yv : BitVec 32) : L.Ok (mem xv yv) := (laid xv yv).pinOk pins holes
def cellQ (x : Nat) : Bool := L0.pinCellB X x
theorem cell {x : Nat} (h : cellQ x = true) : L.cell x := laid0.pinCellB h
theorem pv {v : Nat} (h : v ∈ [A, R]) : PVar L v := by
  have h1 : ∀ v ∈ [A, R], (∀ r ∈ pvPins v, r ∈ X) ∧ (∀ o ∈ [4, 344, 348, 352], L0.Free exBuf 13 (v + o) ∧ ∀ r ∈ X, v + o ≠ r.1 + 4) := by decide +kernel
  exact PVar.pin laid0 (h1 v h).1 (h1 v h).2
theorem vars : ∀ v ∈ (List.range 13).map exVar, v ∈ L.P.vars := fun _ h => h

theorem bp {l : List SBlk} (k : Nat) (h : parts[k]? = some l) : ∀ b ∈ l, b ∈ L.P.blks := fun _ hb => List.mem_flatten.2 ⟨l, List.mem_of_getElem? h, hb⟩
theorem sp {l : List Blk} (k : Nat) (h : sparts[k]? = some l) : ∀ b ∈ l, b ∈ L.P.seqs := fun _ hb => List.mem_flatten.2 ⟨l, List.mem_of_getElem? h, hb⟩
theorem into {E : Emitted} (hb : E.blks = [] ∨ ∃ k : Nat, parts[k]? = some E.blks) (hs : E.seqs = [] ∨ ∃ j : Nat, sparts[j]? = some E.seqs) (h3 : E.rest = []) : E.Into L := by
  refine ⟨?_, ?_, by rw [h3]; simp⟩
  · rcases hb with e | ⟨j, e⟩
    · rw [e]; simp
    · exact bp j e
  · rcases hs with e | ⟨j, e⟩
    · rw [e]; simp
    · exact sp j e
theorem fb {b : SBlk} (k : Nat) (h : bF[k]? = some b) : b ∈ L.P.blks := bp 0 rfl _ (List.mem_of_getElem? h)

/-! Code -/

theorem vpC {t v d n : Nat} (hv : PVar L v) (hn : n < 2 ^ 32) (hb : vpB t v d n ∈ L.P.blks) (r b k : Nat) : Code L r b k (vproc L v 0xFFFFFFFF n (qAssign v d)) t n :=
  vproc_code (acts := qAssign v d) wf hv hn ⟨⟨rfl, rfl, rfl⟩, ⟨rfl, rfl, rfl⟩, ⟨rfl, rfl, rfl⟩, trivial⟩ hb

theorem fAt : F.At L where
  ca := ⟨0, 0, 0, .seq (vpC (pv (by simp)) (by decide) (fb 2 rfl) 0 0 0) .skip⟩
  jm := fb 3 rfl
  bo := ⟨0, 0, emitD_code (S := noS) (f := fun _ => .skip) (es := .base fB) (fun j b k x n m E h => by simp [noS] at h) (by decide +kernel) (into (.inl (by decide +kernel)) (.inr ⟨0, rfl⟩) (by decide +kernel))⟩
  fend := fb 0 rfl
  cr := ⟨0, 0, 0, .seq (vpC (pv (by simp)) (by decide) (fb 4 rfl) 0 0 0) .skip⟩
  ret := fb 5 rfl
  lts := by decide
  ltk := by decide
  cfe := cell (by decide +kernel)
  cce := cell (by decide +kernel)
  ece := by decide
  oka := ⟨by intro c hc; rcases List.mem_singleton.1 hc with rfl; exact pv (by simp), by intro c hc; rcases List.mem_singleton.1 hc with rfl; exact ⟨cell (by decide +kernel), by decide⟩, by decide⟩
  okr := ⟨by intro c hc; rcases List.mem_singleton.1 hc with rfl; exact pv (by simp), by intro c hc; rcases List.mem_singleton.1 hc with rfl; exact ⟨cell (by decide +kernel), by decide⟩, by decide⟩
  st := by decide
  sv := by decide
  ne := by decide
  mr := by decide
  ma := by decide

theorem gAt : G.At L where
  ca := ⟨0, 0, 0, .seq (vpC (pv (by simp)) (by decide) (fb 6 rfl) 0 0 0) .skip⟩
  jm := fb 7 rfl
  bo := ⟨0, 0, emitD_code (S := noS) (f := fun _ => .skip) (es := .base gB) (fun j b k x n m E h => by simp [noS] at h) (by decide +kernel) (into (.inl (by decide +kernel)) (.inr ⟨1, rfl⟩) (by decide +kernel))⟩
  fend := fb 1 rfl
  cr := ⟨0, 0, 0, .skip⟩
  ret := fb 8 rfl
  lts := by decide
  ltk := by decide
  cfe := cell (by decide +kernel)
  cce := cell (by decide +kernel)
  ece := by decide
  oka := ⟨by intro c hc; rcases List.mem_singleton.1 hc with rfl; exact pv (by simp), by intro c hc; rcases List.mem_singleton.1 hc with rfl; exact ⟨cell (by decide +kernel), by decide⟩, by decide⟩
  okr := ⟨by intro c hc; simp [G] at hc, by intro c hc; simp [G] at hc, by decide⟩
  st := by decide
  sv := by decide
  ne := by decide
  mr := by decide
  ma := by decide

theorem jmpC {t back : Nat} (ht : cellQ (t + 4) = true) {r b k x n m : Nat} {E : Emitted} (h : jmpS t back b k x n m = some E) (hi : E.Into L) :
    Code L r b k (.prim (JumpAny L [F, G] t (t + 328) back)) E.e x := by
  unfold jmpS at h
  split at h
  · rename_i hh
    obtain ⟨rfl, rfl, h3⟩ := hh
    cases h
    refine jump_code wf ?_ rfl (hi.blks _ (by simp)) (cell ht) h3
    intro H hH
    simp only [List.mem_cons, List.not_mem_nil, or_false] at hH
    rcases hH with rfl | rfl
    · exact fAt
    · exact gAt
  · cases h

theorem dirC {H : PFn} {np back : Nat} {rs : List (Nat × Nat)} {args : List (Nat × Src)} {b k x n m : Nat} {E : Emitted} (h : dirS H np back rs args b k x n m = some E) (hi : E.Into L) :
    x = back ∧ CallSite L E.e back H.fs np rs args := by
  unfold dirS at h
  split at h
  · rename_i hx
    split at h
    · rename_i hq
      cases h
      obtain ⟨rfl, hx2⟩ := hx
      exact ⟨rfl, ⟨0, 0, 0, emitAsg_code hq hi.seqs _ _ _⟩, hx2⟩
    · cases h
  · cases h

def cG : Stmt := .prim (CallRel L G.fe (G.fe + 4) (seqAt 14) gB [] [(ga + 348, .var y)])
def cF : Stmt := .prim (DirRel L F (seqAt 13) [(R, r0 + 348)] [(fa + 348, .var x)])
def prog : Stmt := .seq setS (.seq (Qc.stmt L [F, G]) (.seq cG (.seq cF (Pc.stmt L [F, G]))))

theorem code : Code L retAt 0 0 prog eM.e (seqAt 10) := by
  refine emitD_code (S := mS) (f := fun j => match j with
    | 0 => .prim (JumpAny L [F, G] Pc.t (Pc.t + 328) Pc.back)
    | 1 => .prim (JumpAny L [F, G] Qc.t (Qc.t + 328) Qc.back)
    | 2 => cG
    | 3 => cF
    | _ => .prim (DirRel L F haltAt [(R, r2 + 348)] [(fa + 348, .var x)])) (es := esM) ?_ (by decide +kernel) (into (.inr ⟨1, rfl⟩) (.inr ⟨3, rfl⟩) (by decide +kernel))
  intro j b k x' n m E h hi
  match j with
  | 0 => exact jmpC (by decide +kernel) h hi
  | 1 => exact jmpC (by decide +kernel) h hi
  | 2 =>
    obtain ⟨rfl, hs⟩ := dirC (b := b) (k := k) h hi
    exact C31_call wf (gAt.direct rfl) hs (by simp) _ _ _
  | 3 =>
    obtain ⟨rfl, hs⟩ := dirC (b := b) (k := k) h hi
    exact dir_code wf fAt (by decide) rfl (by simp) (by decide) hs (by decide) _ _ _
  | _ + 4 =>
    obtain ⟨rfl, hs⟩ := dirC (b := b) (k := k) h hi
    exact dir_code wf fAt (by decide) rfl (by simp) (by decide) hs (by decide) _ _ _

/-! What the functions do -/

theorem fW (s : Mem) : Wp L fB s fun o s2 => (o = .nrm ∨ o = .ret) ∧ s2 (R + 348) = s (fa + 348) + 1 ∧ Only [R + 348] s s2 := by
  refine (Does.asg ?_ ?_ ?_ : Does L fB s fun s2 => s2 (R + 348) = s (fa + 348) + 1 ∧ Only [R + 348] s s2).wp.mono fun o s2 h => ⟨.inl h.1, h.2⟩
  · intro g hg
    simp only [List.mem_cons, List.not_mem_nil, or_false] at hg
    rcases hg with rfl | rfl <;> exact cell (by decide +kernel)
  · intro g hg v hv
    simp only [List.mem_cons, List.not_mem_nil, or_false] at hg
    rcases hg with rfl | rfl <;> cases hv
    exact vars _ (by decide)
  · simp only [runAsg, Src.valM, arith]
    refine ⟨by rw [set_eq, set_eq], fun z hz => ?_⟩
    rw [set_ne (by simpa using hz), set_ne (by simpa using hz)]

theorem gW (s : Mem) : Wp L gB s fun o s2 => (o = .nrm ∨ o = .ret) ∧ s2 (glob + 348) = s (ga + 348) ∧ Only [glob + 348] s s2 := by
  refine (Does.asg ?_ ?_ ?_ : Does L gB s fun s2 => s2 (glob + 348) = s (ga + 348) ∧ Only [glob + 348] s s2).wp.mono fun o s2 h => ⟨.inl h.1, h.2⟩
  · intro g hg
    simp only [List.mem_cons, List.not_mem_nil, or_false] at hg
    rcases hg with rfl; exact cell (by decide +kernel)
  · intro g hg v hv
    simp only [List.mem_cons, List.not_mem_nil, or_false] at hg
    rcases hg with rfl; cases hv
    exact vars _ (by decide)
  · simp only [runAsg, Src.valM, arith]
    exact ⟨by rw [set_eq], fun z hz => set_ne (by simpa using hz)⟩

theorem pcOk : Pc.Ok L F where
  ca := by intro a ha; rcases List.mem_singleton.1 ha with rfl; exact ⟨cell (by decide +kernel), fun v hv => by cases hv; exact vars _ (by decide)⟩
  na := by decide
  aa := by intro a ha b hb v hv; rcases List.mem_singleton.1 ha with rfl; rcases List.mem_singleton.1 hb with rfl; cases hv; decide
  c4 := cell (by decide +kernel)
  c16 := cell (by decide +kernel)
  vp := ⟨vars _ (by decide), vars _ (by decide)⟩
  po := by decide
  vo := by intro a ha; rcases List.mem_singleton.1 ha with rfl; exact ⟨cell (by decide +kernel), vars _ (by decide)⟩
  no := by decide
  oo := by decide
  ha := by decide
  hr := by decide
  ne := by decide
  at4 := by decide
  mm := by decide
  st := by decide

theorem qcOk : Qc.Ok L G where
  ca := by intro a ha; rcases List.mem_singleton.1 ha with rfl; exact ⟨cell (by decide +kernel), fun v hv => by cases hv; exact vars _ (by decide)⟩
  na := by decide
  aa := by intro a ha b hb v hv; rcases List.mem_singleton.1 ha with rfl; rcases List.mem_singleton.1 hb with rfl; cases hv; decide
  c4 := cell (by decide +kernel)
  c16 := cell (by decide +kernel)
  vp := ⟨vars _ (by decide), vars _ (by decide)⟩
  po := by decide
  vo := by intro a ha; cases ha
  no := by decide
  oo := by decide
  ha := by decide
  hr := by decide
  ne := by decide
  at4 := by decide
  mm := by decide
  st := by decide

def kept : List Nat := [x + 348, y + 348, r2 + 348]

/-- What holds when the last call starts: the end of `f` and the indirect caller of `f` lead to the place behind `p(y)`. -/
structure Inv (s : Mem) : Prop where
  fe : s (F.fe + 4) = BitVec.ofNat 32 F.ck
  ce : s (F.ce + 4) = BitVec.ofNat 32 Pc.back
  md : ModsOk s F.rets

theorem does (s : Mem) (h1 : s (F.fe + 4) = BitVec.ofNat 32 R) (h2 : s (R + 352) = pmod .set) (h3 : s (A + 352) = pmod .set) :
    Does L prog s fun s' => s' (glob + 348) = s (y + 348) ∧ s' (r0 + 348) = s (x + 348) + 1 ∧ s' (r1 + 348) = s (y + 348) + 1 ∧ Inv s' ∧ ∀ z ∈ kept, s' z = s z := by
  refine Does.seq (Does.asg ?_ ?_ ?_)
  · have : ∀ g ∈ [pf + 348, pe + 348, qf + 348, qe + 348], cellQ g = true := by decide +kernel
    intro g hg
    simp only [List.mem_cons, List.not_mem_nil, or_false] at hg
    rcases hg with rfl | rfl | rfl | rfl <;> exact cell (this _ (by simp))
  · intro g hg v hv
    simp only [List.mem_cons, List.not_mem_nil, or_false] at hg
    rcases hg with rfl | rfl | rfl | rfl <;> cases hv
  generalize hs : runAsg _ s = sa
  have o0 : Only [pf + 348, pe + 348, qf + 348, qe + 348] s sa := by
    intro z hz
    simp only [List.mem_cons, List.not_mem_nil, or_false, not_or] at hz
    rw [← hs]
    simp only [runAsg, Src.valM, arith]
    rw [set_ne hz.2.2.2, set_ne hz.2.2.1, set_ne hz.2.1, set_ne hz.1]
  have q1 : sa (pf + 348) = BitVec.ofNat 32 F.cs ∧ sa (pe + 348) = epd (F.ce + 4) ∧ sa (qf + 348) = BitVec.ofNat 32 G.cs ∧ sa (qe + 348) = epd (G.ce + 4) := by
    rw [← hs]
    simp only [runAsg, Src.valM, arith]
    refine ⟨?_, ?_, ?_, ?_⟩
    · rw [set_ne (by decide), set_ne (by decide), set_ne (by decide), set_eq]
    · rw [set_ne (by decide), set_ne (by decide), set_eq]
    · rw [set_ne (by decide), set_eq]
    · rw [set_eq]
  refine Does.seq ((C31_pointer (Q := fun s2 => s2 (glob + 348) = sa (x + 348)) gAt qcOk q1.2.2.1 q1.2.2.2 ?_ ?_ ?_ (by simp)).mono ?_)
  · intro c hc; rcases List.mem_singleton.1 hc with rfl; exact ⟨.set, (o0 _ (by decide)).trans h3⟩
  · intro c hc; cases hc
  · intro s1 a1 a2 a3
    refine (gW s1).mono fun o s2 h => ⟨h.1, ?_, h.2.2⟩
    rw [h.2.1]
    exact a1 (⟨A, ga + 348, trigAt 21⟩, (A + 348, .var x)) (by simp [G, Qc])
  rintro sb ⟨⟨sb', b1, -, b2⟩, -, b3, -, -, b4⟩
  have kb : ∀ z ∈ [A + 352], z ∉ G.scr := by decide
  have b5 : sb (A + 352) = pmod .set := b3 ⟨A, ga + 348, trigAt 21⟩ (by simp [G]) (kb _ (by simp))
  have nb : ∀ z ∈ [x + 348, y + 348, r2 + 348, pf + 348, pe + 348, F.fe + 4, R + 352], z ∉ Qc.own ++ G.own ++ Qc.outs.map Prod.fst := by decide
  have na : ∀ z ∈ [x + 348, y + 348, r2 + 348, F.fe + 4, R + 352], z ∉ [pf + 348, pe + 348, qf + 348, qe + 348] := by decide
  refine Does.seq ((C31_pointer_direct wf gAt rfl (Q := fun s2 => s2 (glob + 348) = sb (y + 348)) (callOkB_spec (fun x h => cell (x := x) h) vars (by decide +kernel)) (by decide) ?_).mono ?_)
  · intro s1 a1 a2
    refine (gW s1).mono fun o s2 h => ⟨h.1, ?_, h.2.2⟩
    rw [h.2.1]
    exact a1 (ga + 348, .var y) (by simp)
  rintro sc ⟨c1, c2⟩
  have nc : ∀ z ∈ [x + 348, y + 348, r2 + 348, pf + 348, pe + 348, F.fe + 4, R + 352, A + 352], z ∉ callOnly (G.fe + 4) [] [(ga + 348, Src.var y)] G.scr := by decide
  have k3 : ∀ z ∈ [x + 348, y + 348, r2 + 348, F.fe + 4, R + 352], sc z = s z := by
    intro z hz
    rw [c2 z (nc z (by revert hz; simp only [List.mem_cons, List.not_mem_nil, or_false]; grind)), b4 z (nb z (by revert hz; simp only [List.mem_cons, List.not_mem_nil, or_false]; grind)), o0 z (na z hz)]
  refine Does.seq ((C31_direct (L := L) (F := F) (back := seqAt 13) (rs := [(R, r0 + 348)]) (args := [(fa + 348, .var x)]) (Q := fun s2 => s2 (R + 348) = sc (x + 348) + 1) rfl
    (callOkB_spec (fun x h => cell (x := x) h) vars (by decide +kernel)) (by decide) (by decide) (by rw [k3 _ (by simp), h1]; rfl) (by
      intro r hr
      rcases List.mem_singleton.1 hr with rfl
      rw [k3 _ (by simp), h2]) ?_).mono ?_)
  · intro s1 a1 a2
    refine (fW s1).mono fun o s2 h => ⟨h.1, ?_, h.2.2⟩
    rw [h.2.1, a1 (fa + 348, .var x) (by simp)]
    rfl
  rintro sd ⟨⟨sd', d1, d2, -⟩, d3, d4, d5⟩
  have nd : ∀ z ∈ [x + 348, y + 348, r2 + 348, pf + 348, pe + 348, A + 352, glob + 348], z ∉ callOnly F.nptr [(R, r0 + 348)] [(fa + 348, Src.var x)] F.scr := by decide
  have e1 : sd (r0 + 348) = s (x + 348) + 1 := by
    rw [d2 (R, r0 + 348) (by simp), d1, k3 _ (by simp)]
  have e2 : sd (glob + 348) = s (y + 348) := by
    rw [d5 _ (nd _ (by simp)), c1, b4 _ (nb _ (by simp)), o0 _ (na _ (by simp))]
  have e3 : ∀ z ∈ [pf + 348, pe + 348], sd z = sa z := by
    intro z hz
    rw [d5 z (nd z (by revert hz; simp only [List.mem_cons, List.not_mem_nil, or_false]; grind)), c2 z (nc z (by revert hz; simp only [List.mem_cons, List.not_mem_nil, or_false]; grind)),
      b4 z (nb z (by revert hz; simp only [List.mem_cons, List.not_mem_nil, or_false]; grind))]
  refine (C31_pointer (Q := fun s2 => s2 (R + 348) = sd (y + 348) + 1) fAt pcOk ((e3 (pf + 348) (by simp)).trans q1.1) ((e3 (pe + 348) (by simp)).trans q1.2.1) ?_ ?_ ?_ (by simp)).mono ?_
  · intro c hc; rcases List.mem_singleton.1 hc with rfl; exact ⟨.set, by rw [d5 _ (nd _ (by simp)), c2 _ (nc _ (by simp)), b5]⟩
  · intro c hc; rcases List.mem_singleton.1 hc with rfl; exact ⟨.set, d4 (R, r0 + 348) (by simp)⟩
  · intro s1 a1 a2 a3
    refine (fW s1).mono fun o s2 h => ⟨h.1, ?_, h.2.2⟩
    rw [h.2.1, a1 (⟨A, fa + 348, trigAt 11⟩, (A + 348, .var y)) (by simp [F, Pc])]
    rfl
  rintro se ⟨⟨se', g1, g2, -⟩, g3, -, g4, g5, g6⟩
  have ne : ∀ z ∈ [x + 348, y + 348, r2 + 348, glob + 348, r0 + 348], z ∉ Pc.own ++ F.own ++ Pc.outs.map Prod.fst := by decide
  refine ⟨by rw [g6 _ (ne _ (by simp)), e2], by rw [g6 _ (ne _ (by simp)), e1], ?_, ⟨g4, g5, g3⟩, ?_⟩
  · rw [g2 (⟨R, RS + 348, trigAt 13⟩, (r1 + 348, RS)) (by simp [F, Pc]), g1, d5 _ (nd _ (by simp)), k3 _ (by simp)]
  · intro z hz
    simp only [kept, List.mem_cons, List.not_mem_nil, or_false] at hz
    rw [g6 z (ne z (by rcases hz with rfl | rfl | rfl <;> simp)), d5 z (nd z (by rcases hz with rfl | rfl | rfl <;> simp)), k3 z (by rcases hz with rfl | rfl | rfl <;> simp)]

/-- The code behind `p(y)`, which stores the result. -/
theorem codeR : Code L retAt 0 0 (.asg Pc.asgR) (seqAt 11) (seqAt 10) := by
  have h := emitD_code (L := L) (S := noS) (r := retAt) (f := fun _ => .skip) (es := .base (.asg Pc.asgR)) (b := 0) (k := 0) (x := seqAt 10) (n := 30) (m := 11) (fun j b k x n m E h => by simp [noS] at h) (by decide +kernel) ⟨by
      rw [show (emitD retAt noS (.base (.asg Pc.asgR)) 0 0 (seqAt 10) 30 11).blks = [] by decide +kernel]; simp, ?_, by
      rw [show (emitD retAt noS (.base (.asg Pc.asgR)) 0 0 (seqAt 10) 30 11).rest = [] by decide +kernel]; simp⟩
  · exact h
  · intro b hb
    refine sp 3 rfl b ?_
    have e : ∀ b ∈ eR.seqs, ∃ i : Nat, eM.seqs[i]? = some b := by
      have e1 : eR.seqs.length = 1 := by decide +kernel
      intro b hb
      obtain ⟨i, hi, rfl⟩ := List.getElem_of_mem hb
      obtain rfl : i = 0 := by omega
      exact ⟨0, rfl⟩
    obtain ⟨i, hi⟩ := e b hb
    exact List.mem_of_getElem? hi

/-- The last call: control comes back behind the call through `p`, not to its own caller. -/
theorem last (s : Mem) (hi : Inv s) : ∃ s', L.Runs s (seqAt 10) s' (seqAt 10) ∧ Inv s' ∧ s' (r1 + 348) = s (x + 348) + 1 ∧ ∀ z ∈ kept, s' z = s z := by
  have hC : CallSite L (seqAt 10) haltAt F.fs F.nptr [(R, r2 + 348)] [(fa + 348, .var x)] := by
    have := dirC (H := F) (np := F.nptr) (back := haltAt) (rs := [(R, r2 + 348)]) (args := [(fa + 348, .var x)]) (b := 0) (k := 0) (x := haltAt) (n := 40) (m := 10) (E := eL)
      (emitD_eq (r := retAt) (S := mS) (es := .site 4) (b := 0) (k := 0) (x := haltAt) (n := 40) (m := 10) (by decide +kernel)) (into (.inl (by decide +kernel)) (.inr ⟨2, rfl⟩) (by decide +kernel))
    exact this.2
  obtain ⟨s1, a1, ⟨s2, q1, q2⟩, a2, a3, a4, a5⟩ := C31_direct_after_pointer wf fAt hC (callOkB_spec (fun x h => cell (x := x) h) vars (by decide +kernel)) (w := Pc.back) (by decide) (by decide) (by decide) hi.fe hi.ce hi.md
    (Q := fun s2 => s2 (R + 348) = s (x + 348) + 1) (fun s1 h1 h2 => (fW s1).mono fun o s2 h => ⟨h.1, by rw [h.2.1, h1 (fa + 348, .var x) (by simp)]; rfl, h.2.2⟩)
  have hx : Exec L (.asg Pc.asgR) s1 .nrm (runAsg Pc.asgR s1) := by
    refine .asg ?_ ?_
    · intro g hg; rcases List.mem_singleton.1 hg with rfl; exact cell (by decide +kernel)
    · intro g hg v hv; rcases List.mem_singleton.1 hg with rfl; cases hv; exact vars _ (by decide)
  have e : runAsg Pc.asgR s1 = s1.set (r1 + 348) (s1 (RS + 348)) := rfl
  rw [e] at hx
  have ne : ∀ z ∈ [F.fe + 4, F.ce + 4, R + 352, x + 348, y + 348, r2 + 348], z ≠ r1 + 348 := by decide
  refine ⟨_, a1.trans (C25_structured wf hx codeR), ⟨by rw [set_ne (ne _ (by simp)), a2], by rw [set_ne (ne _ (by simp)), a3], ?_⟩, ?_, ?_⟩
  · intro c hc
    rcases List.mem_singleton.1 hc with rfl
    exact ⟨.set, by rw [set_ne (ne _ (by simp))]; exact a4 _ (by simp [F])⟩
  · rw [set_eq, q2 ⟨R, RS + 348, trigAt 13⟩ (by simp [F]), q1]
  · intro z hz
    have k : ∀ z ∈ kept, z ∉ F.nptr :: ([(R, r2 + 348)].map (fun r => r.1 + 344) ++ [(fa + 348, Src.var x)].map Prod.fst ++ F.scr ++ copScr F.rets) ∧ z ≠ r1 + 348 := by decide
    rw [set_ne (k z hz).2, a5 z (k z hz).1]

/-- All calls before the last one work.  The last call leads back to itself (and so forth, `last`): `r2` keeps the value 7 that it had at
the start, and the result of `p(y)` is overwritten. -/
theorem run (xv yv : BitVec 32) : ∃ m', Reaches ⟨mem xv yv, eM.e⟩ ⟨m', seqAt 10⟩ ∧ m' (glob + 348) = yv ∧ m' (r0 + 348) = xv + 1 ∧ m' (r1 + 348) = yv + 1 ∧ m' (r2 + 348) = 7 ∧
    ∃ m'', Reaches ⟨m', seqAt 10⟩ ⟨m'', seqAt 10⟩ ∧ m'' (r1 + 348) = xv + 1 ∧ m'' (r2 + 348) = 7 := by
  have hvv : ∀ a, L.cell a → ∀ m, L.view m a = m a := fun a ha m => Layout.view_at ha.2
  have hl := laid xv yv
  have vv : ∀ k : Nat, (h : k < 13) → L.view (mem xv yv) (exVar k + 348) = (vs xv yv)[k]'h := by
    intro k h
    have hc : ∀ k < 13, cellQ (exVar k + 348) = true := by decide +kernel
    rw [hvv _ (cell (hc k h))]
    exact (hl.ok _).2 k h
  have fr : ∀ z, cellQ z = true ∧ L0.Free exBuf 13 z → L.view (mem xv yv) z = match (pinHoles X ++ holes).find? (fun r => r.1 == z) with | some r => r.2 | none => 0 := by
    intro z hz
    rw [hvv _ (cell hz.1)]
    exact (hl.free hz.2 (by decide) _)
  have hc : ∀ z ∈ [A + 352, R + 352], cellQ z = true ∧ L0.Free exBuf 13 z := by decide +kernel
  have h1 : L.view (mem xv yv) (F.fe + 4) = BitVec.ofNat 32 R := by
    rw [hvv _ (cell (by decide +kernel))]
    have := (hl.hole (show feB F ∈ L0.P.blks from fb 0 rfl) (o := 4) (by decide) (by decide +kernel) (fun _ => by simp [L0]) (pinHoles X ++ holes)).2
    exact this.trans (by decide +kernel)
  obtain ⟨s', xe, g1, g2, g3, g4, g5⟩ := does (L.view (mem xv yv)) h1 ((fr (R + 352) (hc _ (by simp))).trans (by decide +kernel)) ((fr (A + 352) (hc _ (by simp))).trans (by decide +kernel))
  obtain ⟨m', rr, hok, hv'⟩ := C25_structured wf xe code _ (ok xv yv) rfl
  have hm : ∀ z ∈ [glob + 348, r0 + 348, r1 + 348, r2 + 348], ∀ m, L.view m z = m z := by
    have : ∀ z ∈ [glob + 348, r0 + 348, r1 + 348, r2 + 348], cellQ z = true := by decide +kernel
    exact fun z hz => hvv z (cell (this z hz))
  have e1 := vv 3 (by decide)
  have e2 := vv 4 (by decide)
  have e3 := vv 12 (by decide)
  change L.view (mem xv yv) (x + 348) = xv at e1
  change L.view (mem xv yv) (y + 348) = yv at e2
  change L.view (mem xv yv) (r2 + 348) = 7 at e3
  have f1 : s' (r2 + 348) = 7 := (g5 _ (by simp [kept])).trans e3
  have f2 : s' (x + 348) = xv := (g5 _ (by simp [kept])).trans e1
  refine ⟨m', rr, ?_, ?_, ?_, ?_, ?_⟩
  · rw [← hm (glob + 348) (by simp) m', hv', g1, e2]
  · rw [← hm (r0 + 348) (by simp) m', hv', g2, e1]
  · rw [← hm (r1 + 348) (by simp) m', hv', g3, e2]
  · rw [← hm (r2 + 348) (by simp) m', hv', f1]
  · obtain ⟨s2, b1, b2, b3, b4⟩ := last _ g4
    obtain ⟨m2, c1, c2, c3⟩ := b1 m' hok hv'
    refine ⟨m2, c1, ?_, ?_⟩
    · rw [← hm (r1 + 348) (by simp) m2, c3, b3, f2]
    · rw [← hm (r2 + 348) (by simp) m2, c3, b4 _ (by simp [kept]), f1]

end ExFnPtr

end Eud.SC
