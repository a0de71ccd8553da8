import Verif.Machine.Emit
import Verif.Lib.Logic
import Verif.Lib.Loops
/-
Examples for C16, C23, C25, C27 and C48.
-/

namespace Eud.SC

theorem Exec.acts_inv {L : Layout} {as : List PA} {s s' : Mem} (h : Exec L (.trig [] as) s .nrm s') : s' = runPA as s := by
  cases h
  simp

namespace ExCmp
def c : Nat := trigAt 0 + 8
abbrev cmp : Stmt × PC := cmpVar (exVar 0) (exVar 1) (exVar 2) c .lt
def st : Stmt := .ite cmp.1 [cmp.2] (.asg [⟨exVar 3 + 348, .set, .const 1⟩]) (.asg [⟨exVar 3 + 348, .set, .const 2⟩])
theorem laid : (exLayout st 4).Laid exBuf [5, 7, 0, 0] := Layout.laidB_spec (by decide +kernel)

/-- `5 < 7` -/
example : ∃ m', Reaches ⟨(exLayout st 4).mem exBuf [5, 7, 0, 0], exEntry st⟩ ⟨m', haltAt⟩ ∧ m' (exVar 3 + 348) = 1 := by
  obtain ⟨o, m', h1, rfl, h2⟩ := exRun (holes := []) (by decide +kernel) laid
    (Does.ite ((C23_var laid.wf (laid.exVars (i := 0) (by decide)) (laid.exVars (i := 1) (by decide)) (laid.exVars (i := 2) (by decide)) (by decide) (by decide)
      .lt (fun _ => laid.cellB (by decide +kernel)) (by simp) (by decide) (by decide) (by decide) _).mono fun s1 g => by
        refine ⟨g.1, fun _ => Does.asg (by simpa using laid.exCell (i := 3) (by decide)) (by simp) (by simp only [runAsg, set_eq]; rfl), fun h => ?_⟩
        rw [g.2.1] at h
        simp only at h
        rw [laid.exVal (by decide), laid.exVal (by decide)] at h
        cases h) : Does _ st _ fun s => s (exVar 3 + 348) = 1).wp
  rw [laid.exView (by decide)] at h2
  exact ⟨m', h1, h2⟩
end ExCmp

namespace ExLoopN
def st : Stmt := loopN (exVar 1 + 348) 3 (.asg [⟨exVar 0 + 348, .add, .const 10⟩])
theorem laid : (exLayout st 2).Laid exBuf [5, 7] := Layout.laidB_spec (by decide +kernel)

/-- three times `x += 10` -/
example : ∃ m', Reaches ⟨(exLayout st 2).mem exBuf [5, 7], exEntry st⟩ ⟨m', haltAt⟩ ∧ m' (exVar 0 + 348) = 35 := by
  have hb : ∀ s, Exec (exLayout st 2) (.asg [⟨exVar 0 + 348, .add, .const 10⟩]) s .nrm (s.set (exVar 0 + 348) (s (exVar 0 + 348) + 10)) :=
    fun s => .asg (by simpa using laid.exCell (i := 0) (by decide)) (by simp)
  have hd : Does (exLayout st 2) st ((exLayout st 2).view ((exLayout st 2).mem exBuf [5, 7] [])) fun s => s (exVar 0 + 348) = 35 := by
    refine ⟨_, C25_loopN (laid.exCell (i := 1) (by decide)) (.step (hb _) (.inl rfl) (set_ne (by decide)) (.step (hb _) (.inl rfl) (set_ne (by decide))
      (.step (hb _) (.inl rfl) (set_ne (by decide)) (.done _)))), ?_⟩
    simp only [set_eq, set_ne (show exVar 0 + 348 ≠ exVar 1 + 348 by decide), laid.exVal (i := 0) (by decide)]
    rfl
  obtain ⟨o, m', h1, rfl, h2⟩ := exRun (by decide +kernel) laid hd.wp
  rw [laid.exView (by decide)] at h2
  exact ⟨m', h1, h2⟩
end ExLoopN

namespace ExOr2
abbrev x : Nat := exVar 0 + 348
abbrev y : Nat := exVar 1 + 348
def v : LB := ⟨exVar 2 + 348, 7⟩
/-- `x >= 10`, then `(y := 1, x == 5)`, then `(y := 2, x == 6)` -/
def ps : List Part := [⟨.skip, [cMem x .atLeast 10], false, true, none⟩, ⟨.asg [⟨y, .set, .const 1⟩], [cMem x .exactly 5], false, false, none⟩,
  ⟨.asg [⟨y, .set, .const 2⟩], [cMem x .exactly 6], false, false, none⟩]
def st : Stmt := scOr v.flag ps
theorem laid : (exLayout st 3).Laid exBuf [5, 7, 0xFFFF] := Layout.laidB_spec (by decide +kernel)

theorem good : v.flag.Good (exLayout st 3) ps := by
  refine LB.flag_good (by decide) (laid.exCell (i := 2) (by decide)) ?_
  intro p hp s s' he
  simp only [ps, List.mem_cons, List.not_mem_nil, or_false] at hp
  rcases hp with rfl | rfl | rfl <;> cases he
  · rfl
  · simp only [runAsg]; rw [set_ne (show v.a ≠ y by decide)]
  · simp only [runAsg]; rw [set_ne (show v.a ≠ y by decide)]

theorem does {s : Mem} (hx : s x = 5) (hv : s v.a = 0xFFFF) : Does (exLayout st 3) st s fun s2 => s2 v.a = 0xFFFF ∧ s2 y = 1 := by
  have hc : runPA [v.clear] s x = 5 := by
    simp only [runPA_cons, runPA_nil]
    exact ((LB.clear_put (v := v) (by decide) s).2.2 _ (by decide)).trans hx
  refine (C27_or good (b := true) (s' := fun s => s.set y 1) ?_).mono ?_
  · intro s0 h0
    obtain rfl := h0.acts_inv
    refine .next ⟨.skip _, by simp; exact cMem_ok (laid.exCell (i := 0) (by decide)) _ _ _, ?_⟩
      (.stop ⟨.asg (by simpa using laid.exCell (i := 1) (by decide)) (by simp), by simp; exact cMem_ok (laid.exCell (i := 0) (by decide)) _ _ _, ?_⟩)
    · simp only [holdsAll_cons, holdsAll_nil, Bool.and_true, cMem_holds, hc]
      decide
    · simp only [holdsAll_cons, holdsAll_nil, Bool.and_true, cMem_holds, runAsg]
      rw [set_ne (by decide), hc]
      decide
  · rintro s2 ⟨-, s0, h0, h2⟩
    obtain rfl := h0.acts_inv
    rw [if_pos rfl] at h2
    obtain rfl := h2.acts_inv
    simp only [runPA_cons, runPA_nil, LB.set, LB.clear, aMemX_run, set_eq]
    rw [set_ne (show v.a ≠ y by decide), set_eq, hv, set_ne (show y ≠ v.a by decide), set_eq]
    decide

/-- The second part decides; the third is not evaluated. -/
example : ∃ m', Reaches ⟨(exLayout st 3).mem exBuf [5, 7, 0xFFFF], exEntry st⟩ ⟨m', haltAt⟩ ∧ m' (exVar 2 + 348) = 0xFFFF ∧ m' (exVar 1 + 348) = 1 := by
  obtain ⟨o, m', h1, rfl, h2, h3⟩ := exRun (holes := []) (by decide +kernel) laid (does (laid.exVal (i := 0) (by decide) _) (laid.exVal (i := 2) (by decide) _)).wp
  exact ⟨m', h1, (laid.exView (i := 2) (by decide) m').symm.trans h2, (laid.exView (i := 1) (by decide) m').symm.trans h3⟩
end ExOr2

namespace ExAnd2
abbrev x : Nat := exVar 0 + 348
def v : LB := ⟨exVar 1 + 348, 7⟩
/-- `not (x >= 10)`, then `x == 5`: a list of conditions -/
def ps : List Part := [⟨.skip, [cMem x .atLeast 10], true, true, some [cMem x .atMost 9]⟩, ⟨.skip, [cMem x .exactly 5], false, true, none⟩]
example : scAnd v.flag [] ps = .inl [cMem x .atMost 9, cMem x .exactly 5] := rfl

/-- the same with code in the second part -/
def qs : List Part := [⟨.skip, [cMem x .atLeast 10], true, true, some [cMem x .atMost 9]⟩, ⟨.asg [⟨x, .set, .const 6⟩], [cMem x .exactly 5], false, false, none⟩]
example : scAnd v.flag [] qs = .inr (.seq (.trig [] [v.set]) (.ite .skip [cMem x .atMost 9]
    (.ite (.asg [⟨x, .set, .const 6⟩]) [cMem x .exactly 5] .skip (.trig [] [v.clear])) (.trig [] [v.clear]))) := by
  simp [scAnd, scAnd.scAndCode, qs, scChain, LB.flag]

/-- The hypothesis of C27_and about constant parts. -/
theorem const {L : Layout} (h : L.cell x) (s : Mem) : ∀ p ∈ ps, p.const = true → p.Const L s := by
  intro p hp _
  simp only [ps, List.mem_cons, List.not_mem_nil, or_false] at hp
  rcases hp with rfl | rfl
  · refine ⟨rfl, by simp; exact cMem_ok h _ _ _, fun c hc => ?_⟩
    simp only [Option.some.injEq] at hc
    subst hc
    refine ⟨by simp; exact cMem_ok h _ _ _, ?_⟩
    simp only [holdsAll_cons, holdsAll_nil, Bool.and_true, cMem_holds, compare, BitVec.le_def, ← decide_not, decide_eq_decide]
    show _ ≤ 9 ↔ ¬ 10 ≤ _
    omega
  · exact ⟨rfl, by simp; exact cMem_ok h _ _ _, fun c hc => by cases hc⟩
end ExAnd2

end Eud.SC
