import Verif.Lib.Compare
/-
C25: counted loops (ctrlstru/loopblock.py:49-97).
-/

namespace Eud.SC

variable {L : Layout}

/-- loopblock.py:49-77 `EUDLoopN()(n) .. EUDEndLoopN()`; `c` is the address of the counter.  (`n` is a constant.) -/
def loopN (c : Nat) (n : W) (body : Stmt) : Stmt :=
  .seq (.trig [] [aMem c .set n]) (.loop true .skip [cMem c .exactly 0] body (.trig [] [aMem c .sub 1]))

/-- Spec: the body is executed `n` times, or until it breaks or returns.  `c` is the counter, which the body does not touch. -/
inductive Times (L : Layout) (c : Nat) (body : Stmt) : Nat → Mem → Out → Mem → Prop
  | done (s : Mem) : Times L c body 0 s .nrm s
  | brk {n : Nat} {s s' : Mem} : Exec L body s .brk s' → Times L c body (n + 1) s .nrm s'
  | ret {n : Nat} {s s' : Mem} : Exec L body s .ret s' → Times L c body (n + 1) s .ret s'
  | step {n : Nat} {s s1 s' : Mem} {o o' : Out} : Exec L body s o s1 → (o = .nrm ∨ o = .cont) → s1 c = s c →
      Times L c body n (s1.set c (BitVec.ofNat 32 n)) o' s' → Times L c body (n + 1) s o' s'

theorem loopN_aux {c : Nat} (hc : L.cell c) {body : Stmt} {n : Nat} {s : Mem} {o : Out} {s' : Mem} (h : Times L c body n s o s') (hn : (s c).toNat = n) :
    Exec L (.loop true .skip [cMem c .exactly 0] body (.trig [] [aMem c .sub 1])) s o s' := by
  have hok : ∀ (s : Mem), ∀ p ∈ [cMem c .exactly 0], p.Ok L s := fun s => by simp; exact cMem_ok hc _ _ _
  have hne : ∀ {s : Mem} {n : Nat}, (s c).toNat = n + 1 → holdsAll s [cMem c .exactly 0] = !true := by
    intro s n h
    simp only [holdsAll_cons, holdsAll_nil, Bool.and_true, cMem_holds, compare, Bool.not_true, decide_eq_false_iff_not]
    intro e
    rw [e] at h
    simp at h
  induction h with
  | done s =>
    refine .loopEnd (.skip _) (hok s) ?_
    simp only [holdsAll_cons, holdsAll_nil, Bool.and_true, cMem_holds, compare, decide_eq_true_eq]
    exact BitVec.eq_of_toNat_eq hn
  | brk h => exact .loopBrk (.skip _) (hok _) (hne hn) h
  | ret h => exact .loopRet (.skip _) (hok _) (hne hn) h
  | @step n s s1 s' o o' h ho h1 hr ih =>
    have hlt := (s c).isLt
    have e : runPA [aMem c .sub 1] s1 = s1.set c (BitVec.ofNat 32 n) := by
      simp only [runPA_cons, runPA_nil, aMem_run, arith]
      congr 1
      apply BitVec.eq_of_toNat_eq
      rw [h1]
      have h1 : (1 : W).toNat = 1 := rfl
      have : ¬ (s c).toNat < 1 := by omega
      simp only [BitVec.lt_def, h1, this, if_false, BitVec.toNat_sub, BitVec.toNat_ofNat]
      omega
    refine .loopStep (.skip _) (hok _) (hne hn) h ?_ (.acts (actsOk_mem hc trivial)) (o' := o') ?_
    · rcases ho with rfl | rfl <;> simp
    · rw [e]
      refine ih ?_
      rw [set_eq, BitVec.toNat_ofNat]
      omega

/-- **C25 (EUDLoopN).** The body is executed exactly `n` times, unless it breaks or returns. -/
theorem C25_loopN {c : Nat} (hc : L.cell c) {body : Stmt} {n : W} {s : Mem} {o : Out} {s' : Mem} (h : Times L c body n.toNat (s.set c n) o s') :
    Exec L (loopN c n body) s o s' := by
  refine .seqN (.acts (actsOk_mem hc trivial)) (loopN_aux hc (n := n.toNat) ?_ ?_)
  · simpa only [runPA_cons, runPA_nil, aMem_run, arith] using h
  · simp only [runPA_cons, runPA_nil, aMem_run, arith, set_eq]

/-- loopblock.py:83-97 `EUDLoopRange(start, end)`; `pre`, `cs` is the condition `v >= end`. -/
def loopRange (v : Nat) (start : Src) (pre : Stmt) (cs : List PC) (body : Stmt) : Stmt :=
  .seq (.asg [⟨v + 348, .set, start⟩]) (.loop true pre cs body (.asg [⟨v + 348, .add, .const 1⟩]))

/-- Spec: the body is executed with the variable equal to `i`, `i + 1`, .., `e - 1`, or until it breaks or returns.  `pre` is the code of the condition.
The value `e` of `end` is the same every time. -/
inductive Range (L : Layout) (v : Nat) (pre : Stmt) (E : Mem → W) (body : Stmt) : Nat → Nat → Mem → Out → Mem → Prop
  | done {i e : Nat} {s s' : Mem} : e ≤ i → (E s).toNat = e → Exec L pre s .nrm s' → Range L v pre E body i e s .nrm s'
  | brk {i e : Nat} {s s1 s' : Mem} : i < e → (E s).toNat = e → Exec L pre s .nrm s1 → Exec L body s1 .brk s' → Range L v pre E body i e s .nrm s'
  | ret {i e : Nat} {s s1 s' : Mem} : i < e → (E s).toNat = e → Exec L pre s .nrm s1 → Exec L body s1 .ret s' → Range L v pre E body i e s .ret s'
  | step {i e : Nat} {s s1 s2 s' : Mem} {o o' : Out} : i < e → (E s).toNat = e → Exec L pre s .nrm s1 → Exec L body s1 o s2 → (o = .nrm ∨ o = .cont) →
      (s2 (v + 348)).toNat = i → Range L v pre E body (i + 1) e (s2.set (v + 348) (BitVec.ofNat 32 (i + 1))) o' s' → Range L v pre E body i e s o' s'

/-- The condition of a loop, for every way to execute its code. -/
def CondOf (L : Layout) (pre : Stmt) (cs : List PC) (P : Mem → Bool) : Prop :=
  ∀ s s', Exec L pre s .nrm s' → (∀ c ∈ cs, c.Ok L s') ∧ holdsAll s' cs = P s

theorem loopRange_aux (hw : L.Wf) {v : Nat} (hv : v ∈ L.P.vars) {pre : Stmt} {cs : List PC} {E : Mem → W}
    (hP : CondOf L pre cs fun s => decide ((E s).toNat ≤ (s (v + 348)).toNat)) {body : Stmt} {i e : Nat} {s : Mem} {o : Out} {s' : Mem}
    (h : Range L v pre E body i e s o s') (hi : (s (v + 348)).toNat = i) : Exec L (.loop true pre cs body (.asg [⟨v + 348, .add, .const 1⟩])) s o s' := by
  induction h with
  | done h1 h2 h3 =>
    obtain ⟨g1, g2⟩ := hP _ _ h3
    exact .loopEnd h3 g1 (by rw [g2]; simp only [decide_eq_true_eq]; omega)
  | brk h1 h2 h3 h4 =>
    obtain ⟨g1, g2⟩ := hP _ _ h3
    exact .loopBrk h3 g1 (by rw [g2]; simp only [Bool.not_true, decide_eq_false_iff_not]; omega) h4
  | ret h1 h2 h3 h4 =>
    obtain ⟨g1, g2⟩ := hP _ _ h3
    exact .loopRet h3 g1 (by rw [g2]; simp only [Bool.not_true, decide_eq_false_iff_not]; omega) h4
  | @step i e s s1 s2 s' o o' h1 h2 h3 h4 ho h5 hr ih =>
    obtain ⟨g1, g2⟩ := hP _ _ h3
    have hE := (E s).isLt
    have e1 : runAsg [⟨v + 348, .add, .const 1⟩] s2 = s2.set (v + 348) (BitVec.ofNat 32 (i + 1)) := by
      simp only [runAsg, arith, Src.valM]
      congr 1
      apply BitVec.eq_of_toNat_eq
      rw [BitVec.toNat_add, h5, BitVec.toNat_ofNat]
      rfl
    refine .loopStep h3 g1 (by rw [g2]; simp only [Bool.not_true, decide_eq_false_iff_not]; omega) h4 ?_
      (.asg (by simpa using cell_val hw hv) (by simp)) (o' := o') ?_
    · rcases ho with rfl | rfl <;> simp
    · rw [e1]
      refine ih ?_
      rw [set_eq, BitVec.toNat_ofNat]
      omega

/-- **C25 (EUDLoopRange).** The body is executed exactly for `start`, `start + 1`, .., `end - 1`, in this order, unless it breaks or returns. -/
theorem C25_range (hw : L.Wf) {v : Nat} (hv : v ∈ L.P.vars) {start : Src} (hst : ∀ x, start = .var x → x ∈ L.P.vars) {pre : Stmt} {cs : List PC}
    {E : Mem → W} (hP : CondOf L pre cs fun s => decide ((E s).toNat ≤ (s (v + 348)).toNat)) {body : Stmt} {e : Nat} {s : Mem} {o : Out} {s' : Mem}
    (h : Range L v pre E body (start.valM s).toNat e (s.set (v + 348) (start.valM s)) o s') : Exec L (loopRange v start pre cs body) s o s' := by
  refine .seqN (.asg (by simpa using cell_val hw hv) (by simpa using hst)) (loopRange_aux hw hv hP (i := (start.valM s).toNat) (e := e) ?_ ?_)
  · simpa only [runAsg, arith] using h
  · simp only [runAsg, arith, set_eq]

/-- The condition `v >= end` for a constant and for a variable `y` as `end` (C23). -/
theorem condOf_const (hw : L.Wf) {v : Nat} (hv : v ∈ L.P.vars) (t : Nat) {k : Int} (h0 : 0 ≤ k) (h1 : k < 2 ^ 32) :
    CondOf L (cmpConst v t .ge k).1 [(cmpConst v t .ge k).2] fun s => decide (k.toNat ≤ (s (v + 348)).toNat) := by
  intro s s' he
  cases he
  refine ⟨by simp; exact cMem_ok (cell_val hw hv) _ _ _, ?_⟩
  simp only [cmpConst, holdsAll_cons, holdsAll_nil, Bool.and_true, cMem_holds, compare, decide_eq_decide, BitVec.le_def]
  have := toNat_encW h0 h1
  omega

theorem condOf_var (hw : L.Wf) {v y c : Nat} (hv : v ∈ L.P.vars) (t : Nat) (hne : c + 8 ≠ v + 348) :
    CondOf L (cmpVar v y t c .ge).1 [(cmpVar v y t c .ge).2] fun s => decide ((s (y + 348)).toNat ≤ (s (v + 348)).toNat) := by
  intro s s' he
  cases he
  simp only [cmpVar, List.mem_singleton, forall_eq]
  refine ⟨cMemV_ok (cell_val hw hv) _ _ _, ?_⟩
  simp only [holdsAll_cons, holdsAll_nil, Bool.and_true, cMemV_holds, compare, BitVec.le_def, runAsg, arith, set_eq, Src.valM, set_ne (Ne.symm hne)]

end Eud.SC
