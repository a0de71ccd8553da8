import Verif.Machine.Emit
import Verif.Machine.Track
import Verif.Lib.Once
/-
Examples for C28, and what happens with an empty list of conditions.
-/

namespace Eud.SC

namespace ExOnce

/-! ## `if EUDExecuteOnce()(): w += 5` -/

def w : Nat := exVar 0
def t (i : Nat) : Nat := trigAt i
def te : SBlk := ⟨t 1, ⟨[], skipActs (t 0) haltAt⟩, some haltAt, false⟩
def L0 : Layout := ⟨⟨[⟨t 0, ⟨[], [sMem (w + 348) .add 5]⟩, some (t 1), false⟩, te], [], [w]⟩, [], []⟩
def M : Layout := ⟨⟨[⟨t 0, ⟨[], [sMem (w + 348) .add 5]⟩, none, true⟩, te], [], [w]⟩, [], []⟩
def LF : Layout := (L0.hide (t 0 + 4)).hide (t 0 + 2376)
def LD : Layout := (M.track (t 0, haltAt)).track (t 0 + 2372, 8)

theorem laid0 (a : W) : L0.Laid exBuf [a] := Layout.laidB_spec (show L0.laidB exBuf 1 = true by decide +kernel)
theorem laidM : M.Laid exBuf [0] := Layout.laidB_spec (show M.laidB exBuf 1 = true by decide +kernel)

theorem wfF : LF.Wf := ((laid0 0).wf.hide (Layout.free_of (by decide +kernel) (by decide +kernel) (by decide))).hide
  (Layout.free_of (by decide +kernel) (by decide +kernel) (by decide))

theorem wfD : LD.Wf := by
  have c1 : M.cell (t 0 + 4) := laidM.cellB (by decide +kernel)
  have c2 : M.cell (t 0 + 2376) := laidM.cellB (by decide +kernel)
  refine (laidM.wf.track (r := (t 0, haltAt)) (Layout.free_of (by decide +kernel) (by decide +kernel) (by decide)) c1 (by decide)).track
    (Layout.free_of (by decide +kernel) (by decide +kernel) (by decide)) ?_ (by decide)
  refine ⟨c2.1, ?_⟩
  rw [Layout.track_priv]
  rintro (e | e)
  · exact absurd e (by decide)
  · exact c2.2 e

theorem pair : OncePair LF LD (t 0) haltAt where
  vars := rfl
  seqs := rfl
  blks := by
    intro b hb
    simp only [LD, M, Layout.track, List.mem_cons, List.not_mem_nil, or_false] at hb
    rcases hb with rfl | rfl
    · exact Or.inr ⟨_, List.mem_cons_self, rfl, rfl⟩
    · exact Or.inl (by simp [LF, L0, Layout.hide])
  rest := by
    intro r hr
    simp only [LD, M, Layout.track, List.mem_cons, List.not_mem_nil, or_false] at hr
    grind
  r1 := by simp [LD, Layout.track]
  r2 := by simp [LD, Layout.track]
  priv := by
    intro x
    simp only [LD, LF, Layout.track_priv, Layout.hide_priv]
    exact Iff.rfl

theorem body (s : Mem) : LF.Runs s (t 0) (s.set (w + 348) (s (w + 348) + 5)) (t 1) := by
  have hc : LF.cell (w + 348) := by
    refine ⟨((laid0 0).exCell (i := 0) (by simp)).1, ?_⟩
    exact wfF.val w (by simp [LF, L0, Layout.hide])
  have h := C25_structured (r := 0) (b := 0) (k := 0) wfF (st := .trig [] [aMem (w + 348) .add 5]) (Exec.acts (s := s) (by exact ⟨sMem_ready _ _ _ _ _, hc, trivial⟩))
    (.trig (placedCB_spec (by decide +kernel)) (placedAB_spec (by decide +kernel)) (by exact List.mem_cons_self) : Code LF 0 0 0 _ (t 0) (t 1))
  simpa only [runPA_cons, runPA_nil, aMem_run, arith, Out.dest] using h

/-- Run it once, change `w` to 7, run it again. -/
example (a : W) : ∃ m1, Reaches ⟨L0.mem exBuf [a], t 0⟩ ⟨m1, haltAt⟩ ∧ m1 (w + 348) = a + 5 ∧
    ∃ m2, Reaches ⟨m1.set (w + 348) 7, t 0⟩ ⟨m2, haltAt⟩ ∧ m2 (w + 348) = 7 := by
  have hok : LF.Ok (L0.mem exBuf [a]) := ⟨(laid0 a).ok.1.prog, (laid0 a).ok.1.mask, (laid0 a).ok.1.rest⟩
  obtain ⟨m1, r1, o1, v1⟩ := C28_first pair wfD (by simp [LD, M, te, Layout.track]) (body _) _ hok rfl
  have hv : ¬ LD.priv (w + 348) := wfD.val w (by simp [LD, M, Layout.track])
  have hv0 : ¬ LF.priv (w + 348) := wfF.val w (by simp [LF, L0, Layout.hide])
  have hc : LD.cell (w + 348) := ⟨(laidM.exCell (i := 0) (by simp)).1, hv⟩
  refine ⟨m1, r1, ?_, ?_⟩
  · rw [← Layout.view_at (m := m1) hv, v1, set_eq, Layout.view_at hv0]
    have := (laid0 a).ok.2 0 (by simp)
    simp only [w, exVar]
    rw [this]
    rfl
  · obtain ⟨m2, r2, -, v2⟩ := C28_later pair wfD _ _ (o1.set hc 7) rfl
    refine ⟨m2, r2, ?_⟩
    rw [← Layout.view_at (m := m2) hv, v2, Layout.view_at hv, set_eq]

end ExOnce

/-! ## A trigger that is not preserved, in a loop -/

namespace ExTrigOnce

def w : Nat := exVar 0
def t (i : Nat) : Nat := trigAt i
def cs : List PC := [cMem (w + 348) .atLeast 3]
def as : List PA := [aMem (w + 348) .add 5]
def M : Layout := ⟨⟨[⟨t 0, ⟨cs.map PC.c, as.map PA.a⟩, some (t 1), true⟩, ⟨t 1, ⟨[], [sMem (w + 348) .add 2]⟩, some (t 0), false⟩], [], [w]⟩, [], []⟩
def LD : Layout := M.track (t 0 + 2372, 8)

theorem laid : M.Laid exBuf [0] := Layout.laidB_spec (show M.laidB exBuf 1 = true by decide +kernel)
theorem wfD : LD.Wf := laid.wf.track (Layout.free_of (by decide +kernel) (by decide +kernel) (by decide)) (laid.cellB (by decide +kernel)) (by decide)
theorem cell : LD.cell (w + 348) := ⟨(laid.exCell (i := 0) (by simp)).1, wfD.val w (by simp [LD, M, Layout.track])⟩

theorem block : OnceBlock (LD.redir [(t 0 + 2372, 0)]) LD (t 0) (t 1) (fun s => holdsAll s cs) (fun s s' => s' = runPA as s) (fun s s' => s' = s) :=
  C28_trigger_block wfD List.mem_cons_self (placedCB_spec (by decide +kernel)) (placedAB_spec (by decide +kernel)) List.mem_cons_self
    (fun s p hp => by simp only [cs, List.mem_singleton] at hp; subst hp; exact cMem_ok cell _ _ _) (fun s => ⟨sMem_ready _ _ _ _ _, cell, trivial⟩)

theorem between {L : Layout} (hw : L.Wf) (hc : L.cell (w + 348)) (hb : (⟨t 1, ⟨[], [sMem (w + 348) .add 2]⟩, some (t 0), false⟩ : SBlk) ∈ L.P.blks) (s : Mem) :
    L.Runs s (t 1) (s.set (w + 348) (s (w + 348) + 2)) (t 0) := by
  have h := C25_structured (r := 0) (b := 0) (k := 0) hw (st := .trig [] [aMem (w + 348) .add 2]) (Exec.acts (s := s) (by exact ⟨sMem_ready _ _ _ _ _, hc, trivial⟩))
    (.trig (placedCB_spec (by decide +kernel)) (placedAB_spec (by decide +kernel)) (by exact hb) : Code L 0 0 0 _ (t 1) (t 0))
  simpa only [runPA_cons, runPA_nil, aMem_run, arith, Out.dest] using h

/-- Starting with 2, the trigger is passed over, runs with 4, and is passed over with 11. -/
example : ∃ m, Reaches ⟨(M.mem exBuf [2]), t 0⟩ ⟨m, t 0⟩ ∧ m (w + 348) = 13 := by
  have laid2 : M.Laid exBuf [2] := Layout.laidB_spec (show M.laidB exBuf 1 = true by decide +kernel)
  have hw0 := wfD.redir (d := [(t 0 + 2372, 0)]) (by simp)
  have c0 : (LD.redir [(t 0 + 2372, 0)]).cell (w + 348) := (Layout.redir_cell _ _ _).2 cell
  have hb1 : (⟨t 1, ⟨[], [sMem (w + 348) .add 2]⟩, some (t 0), false⟩ : SBlk) ∈ LD.P.blks := by simp [LD, M, Layout.track]
  have hok : (LD.redir [(t 0 + 2372, 0)]).Ok (M.mem exBuf [2]) := ⟨laid2.ok.1.prog, laid2.ok.1.mask, fun r hr => by
    simp only [Layout.redir, LD, M, Layout.track, List.map_cons, List.map_nil, List.mem_singleton] at hr
    subst hr
    decide +kernel⟩
  have v0 : (LD.redir [(t 0 + 2372, 0)]).view (M.mem exBuf [2]) (w + 348) = 2 := by
    rw [Layout.view_at c0.2]
    exact laid2.ok.2 0 (by simp)
  have hist := OnceHist.notYet (LF := LD.redir [(t 0 + 2372, 0)]) (LD := LD) (fin := t 1) (C := fun s => holdsAll s cs) (R := fun s s' => s' = runPA as s)
    (N := fun s s' => s' = s) (s := (LD.redir [(t 0 + 2372, 0)]).view (M.mem exBuf [2]))
    (by simp only [cs, holdsAll_cons, holdsAll_nil, cMem_holds, v0]; decide) rfl (between hw0 c0 hb1 _)
    (.first (by simp only [cs, holdsAll_cons, holdsAll_nil, cMem_holds, set_eq, v0]; decide) rfl (between wfD cell hb1 _)
      (.later (between wfD cell hb1 _) (.nil _ _)))
  obtain ⟨m, r, o, v⟩ := (C28_history block hist).1 _ hok rfl
  refine ⟨m, r, ?_⟩
  rw [← Layout.view_at (m := m) cell.2]
  simp only [if_true] at v
  rw [v]
  simp only [as, runPA_cons, runPA_nil, aMem_run, arith, set_eq, v0]
  decide

end ExTrigOnce

/-! ## `if EUDExecuteOnce()(w >= 3): w += 5` -/

namespace ExOnceIf

def w : Nat := exVar 0
def t (i : Nat) : Nat := trigAt i
def cs : List PC := [cMem (w + 348) .atLeast 3]
def rem : List SBlk := [⟨t 1, ⟨[], skipActs (t 0) haltAt ++ [sNext (t 0) haltAt]⟩, some (t 2), false⟩, ⟨t 2, ⟨[], [sMem (w + 348) .add 5]⟩, some haltAt, false⟩]
def M (o : Bool) : Layout := ⟨⟨⟨t 0, ⟨cs.map PC.c, [sNext (t 0) (t 1)]⟩, none, o⟩ :: rem, [], [w]⟩, [(t 0, haltAt)], []⟩
def LF : Layout := (M false).hide (t 0 + 2376)
def LD : Layout := (M true).track (t 0 + 2372, 8)

theorem laid0 (a : W) : (M false).Laid exBuf [a] := Layout.laidB_spec (show (M false).laidB exBuf 1 = true by decide +kernel)
theorem laid1 : (M true).Laid exBuf [0] := Layout.laidB_spec (show (M true).laidB exBuf 1 = true by decide +kernel)
theorem wfF : LF.Wf := (laid0 0).wf.hide (Layout.free_of (by decide +kernel) (by decide +kernel) (by decide))
theorem wfD : LD.Wf := laid1.wf.track (Layout.free_of (by decide +kernel) (by decide +kernel) (by decide)) (laid1.cellB (by decide +kernel)) (by decide)
theorem cellF : LF.cell (w + 348) := ⟨((laid0 0).exCell (i := 0) (by simp)).1, wfF.val w (by simp [LF, M, Layout.hide])⟩
theorem cellD : LD.cell (w + 348) := ⟨(laid1.exCell (i := 0) (by simp)).1, wfD.val w (by simp [LD, M, Layout.track])⟩

theorem pair : OncePair LF LD (t 0) haltAt where
  vars := rfl
  seqs := rfl
  blks := by
    intro b hb
    simp only [LD, M, rem, Layout.track, List.mem_cons, List.not_mem_nil, or_false] at hb
    rcases hb with rfl | rfl | rfl
    · exact Or.inr ⟨_, List.mem_cons_self, rfl, rfl⟩
    · exact Or.inl (by simp [LF, M, rem, Layout.hide])
    · exact Or.inl (by simp [LF, M, rem, Layout.hide])
  rest := by
    intro r hr
    simp only [LD, M, Layout.track, List.mem_cons, List.not_mem_nil, or_false] at hr
    grind
  r1 := by simp [LD, M, Layout.track]
  r2 := by simp [LD, Layout.track]
  priv := by
    intro x
    simp only [LD, LF, Layout.track_priv, Layout.hide_priv]
    exact Iff.rfl

def cond : CondOnce LF LD (t 0) haltAt .skip [] cs (t 2) where
  c := t 0
  tl := t 0
  tj := t 1
  r := 0
  b := 0
  k := 0
  pre := .skip
  br := .jump
  len := by decide
  pc := placedCB_spec (by decide +kernel)
  last := by simp [LF, M, Layout.hide]
  rest := by simp [LF, M, Layout.hide]
  rest' := by simp [LD, M, Layout.track]
  join := by simp [LD, M, rem, Layout.track]
  lt := by decide
  ne := by decide

theorem block : OnceBlock LF LD (t 0) haltAt (fun s => holdsAll s ([] ++ cs)) (fun s s' => s' = s.set (w + 348) (s (w + 348) + 5)) (fun s s' => s' = s) :=
  C28_conditional_block pair wfF wfD cond (fun s p hp => by simp only [cs, List.nil_append, List.mem_singleton] at hp; subst hp; exact cMem_ok cellF _ _ _) (by
    rintro s _ rfl
    have h := C25_structured (r := 0) (b := 0) (k := 0) wfD (st := .trig [] [aMem (w + 348) .add 5]) (Exec.acts (s := s) (by exact ⟨sMem_ready _ _ _ _ _, cellD, trivial⟩))
      (.trig (placedCB_spec (by decide +kernel)) (placedAB_spec (by decide +kernel)) (by exact List.mem_cons_of_mem _ (List.mem_cons_of_mem _ List.mem_cons_self)) : Code LD 0 0 0 _ (t 2) haltAt)
    simpa only [runPA_cons, runPA_nil, aMem_run, arith, Out.dest] using h)

end ExOnceIf

/-! ## `if EUDExecuteOnce()([]): ..` -/

namespace ExOnceNil

def w : Nat := exVar 0
def t (i : Nat) : Nat := trigAt i
/-- With an empty list of conditions (branch.py:61-63) the first trigger of the block is the one that ends it. -/
def N : Layout := ⟨⟨[⟨t 0, ⟨[], skipActs (t 0) haltAt⟩, some (t 1), false⟩, ⟨t 1, ⟨[], [sMem (w + 348) .add 5]⟩, some haltAt, false⟩], [], [w]⟩, [], []⟩

/-- **C28 is false** for an empty list of conditions: the body is not performed at all. -/
theorem C28_counterexample_empty : (stepN 1 ⟨N.mem exBuf [0], t 0⟩).map (fun c => (c.pc, c.mem (t 0 + 2376), c.mem (w + 348))) = some (haltAt, 8, 0) := by
  decide +kernel

end ExOnceNil

/-! ## Leaving the body -/

namespace ExOnceBreak

def w : Nat := exVar 0
def t (i : Nat) : Nat := trigAt i
/-- `if EUDExecuteOnce()(): w += 5; EUDBreak()`: the break jumps to the end of the surrounding loop, so the trigger that ends the block is not reached. -/
def N : Layout := ⟨⟨[⟨t 0, ⟨[], [sMem (w + 348) .add 5]⟩, some haltAt, false⟩, ⟨t 1, ⟨[], skipActs (t 0) (t 2)⟩, some (t 2), false⟩,
  ⟨t 2, ⟨[], []⟩, some (t 0), false⟩], [], [w]⟩, [], []⟩

/-- **C28 is false** for bodies that are left by a jump: they are performed every time. -/
theorem C28_counterexample_break : ((stepN 1 ⟨N.mem exBuf [0], t 0⟩).bind (fun c => stepN 1 ⟨c.mem, t 0⟩)).map (fun c => (c.pc, c.mem (w + 348))) = some (haltAt, 10) := by
  decide +kernel

end ExOnceBreak

end Eud.SC
