import Verif.Machine.Emit
import Verif.Lib.PTrigger
/-
Example for C30: `PTrigger([Player4, Force2], [], [w += 1])` with players 1, 3, 5, 7 in force 2.
-/

namespace Eud.SC.ExPTrigger

def w : Nat := exVar 0
def t (i : Nat) : Nat := trigAt i
def pdb : Nat := 0x3000000
def body : Stmt := .trig [] [aMem (w + 348) .add 1]
def L : Layout :=
  ⟨⟨[⟨t 0, ⟨[sChk cpAddr .atMost 7 0xFFFFFFFF], [sNext (t 0) (t 1), sMem cpAddr .add (epd pdb)]⟩, none, false⟩,
     ⟨t 1, ⟨[.check (some (.cp 0)) .exactly (some aaaa) (some 0xFFFFFFFF)], [sNext (t 1) (t 2), sMem cpAddr .sub (epd pdb)]⟩, none, false⟩,
     ⟨t 2, ⟨[], [sMem (w + 348) .add 1]⟩, some (t 3), false⟩,
     ⟨t 3, ⟨[], [sNext (t 1) (t 4), sMem cpAddr .add (epd pdb)]⟩, some (t 4), false⟩,
     ⟨t 4, ⟨[], [sNext (t 0) (t 4), sMem cpAddr .sub (epd pdb)]⟩, some haltAt, false⟩], [], [w]⟩, [(t 0, t 4), (t 1, t 4)], []⟩

theorem laid (a : W) : L.Laid exBuf [a] := Layout.laidB_spec (show L.laidB exBuf 1 = true by decide +kernel)

def code : PTriggerCode L pdb body (t 0) haltAt where
  t2 := t 1
  tc := t 2
  tr := t 3
  t3 := t 4
  h1 := by simp [L]
  r1 := by simp [L]
  h2 := by simp [L]
  r2 := by simp [L]
  hb := fun d _ => ⟨0, 0, 0, .trig trivial (placedAB_spec (by decide +kernel)) (by simp [L, Layout.redir, aMem])⟩
  hr := by simp [L]
  h3 := by simp [L]
  lt := by decide
  ne := by decide
  cp := (laid 0).cellB (by decide +kernel)
  tab := fun p hp => by
    have : p = 0 ∨ p = 1 ∨ p = 2 ∨ p = 3 ∨ p = 4 ∨ p = 5 ∨ p = 6 ∨ p = 7 := by omega
    rcases this with rfl | rfl | rfl | rfl | rfl | rfl | rfl | rfl <;>
      exact ⟨((laid 0).cellB (by decide +kernel)).2, by decide⟩
  al := by decide
  nw := by decide

def qs : List Nat := [3, 0x13]
def force (p : Nat) : Nat := p % 2
def holes (cp : W) : List (Nat × W) :=
  (cpAddr, cp) :: (List.range 8).map fun p => (pdb + 4 * p, if effPlayers force qs (fun _ => false) p then aaaa else 0)

def m0 (cp : W) : Mem := L.mem exBuf [7] (holes cp)

theorem cp_at (cp : W) : L.view (m0 cp) cpAddr = cp := by
  rw [Layout.view_at code.cp.2]
  rfl

theorem table (cp : W) : PTable pdb (effPlayers force qs fun _ => false) (L.view (m0 cp)) := by
  intro p hp
  rw [Layout.view_at (code.tab p hp).1]
  have : p = 0 ∨ p = 1 ∨ p = 2 ∨ p = 3 ∨ p = 4 ∨ p = 5 ∨ p = 6 ∨ p = 7 := by omega
  rcases this with rfl | rfl | rfl | rfl | rfl | rfl | rfl | rfl <;> rfl

theorem val (cp : W) : L.view (m0 cp) (w + 348) = 7 := (laid 7).exVal (i := 0) (by simp) _

theorem see_w (m : Mem) : L.view m (w + 348) = m (w + 348) := (laid 7).exView (i := 0) (by simp) m
theorem see_cp (m : Mem) : L.view m cpAddr = m cpAddr := Layout.view_at code.cp.2

/-- Player 5 is in the force: the action happens, the current player stays. -/
example : ∃ m', Reaches ⟨m0 5, t 0⟩ ⟨m', haltAt⟩ ∧ m' (w + 348) = 8 ∧ m' cpAddr = 5 := by
  have hx : Exec L body (L.view (m0 5)) .nrm _ := Exec.acts (by exact ⟨sMem_ready _ _ _ _ _, (laid 7).exCell (i := 0) (by simp), trivial⟩)
  have e1 : runPA [aMem (w + 348) .add 1] (L.view (m0 5)) cpAddr = 5 := by
    rw [runPA_cons, runPA_nil, aMem_run, set_ne (by decide), cp_at]
  obtain ⟨m', hr, -, hv⟩ := C30_listed (laid 7).wf code (table 5) (by rw [cp_at]; decide) ⟨0x13, by simp [qs], by rw [cp_at]; exact Or.inr (Or.inl (by decide))⟩ hx
    (by rw [e1]; decide) _ ((laid 7).ok _).1 rfl
  refine ⟨m', hr, ?_, ?_⟩
  · rw [← see_w m', hv]
    show runPA [aMem (w + 348) .add 1] (L.view (m0 5)) (w + 348) = 8
    rw [runPA_cons, runPA_nil, aMem_run, set_eq, val]
    rfl
  · rw [← see_cp m', hv, e1]

/-- Player 4 is not listed. -/
example : ∃ m', Reaches ⟨m0 4, t 0⟩ ⟨m', haltAt⟩ ∧ m' (w + 348) = 7 ∧ m' cpAddr = 4 := by
  obtain ⟨m', hr, -, hv⟩ := C30_unlisted (laid 7).wf code (table 4) (by rw [cp_at]; decide)
    (by rw [cp_at]; simp only [qs, Means, force]; decide) _ ((laid 7).ok _).1 rfl
  refine ⟨m', hr, ?_, ?_⟩
  · rw [← see_w m', hv]
    exact val 4
  · rw [← see_cp m', hv, cp_at]

/-- Player 8 becomes player 0. -/
example : ∃ m', Reaches ⟨m0 8, t 0⟩ ⟨m', haltAt⟩ ∧ m' cpAddr = 0 := by
  obtain ⟨m', hr, -, hv⟩ := C30_counterexample (s := L.view (m0 8)) (laid 7).wf code (by rw [cp_at]; decide) (by rw [cp_at]; decide) _ ((laid 7).ok _).1 rfl
  refine ⟨m', hr, ?_⟩
  rw [← see_cp m', hv, set_eq]

end Eud.SC.ExPTrigger
