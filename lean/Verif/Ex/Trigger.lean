import Verif.Machine.Emit
import Verif.Lib.Trigger
/-
Example for C29: 17 conditions and 65 actions.  Counterexample for C28: a trigger of that size that is not preserved.
-/

namespace Eud.SC

namespace ExTrigger

def v : Nat := exVar 0
def w : Nat := exVar 1
def t (i : Nat) : Nat := trigAt i
/-- `v >= 0, v >= 1, .., v >= 16` -/
def cs : List PC := (List.range 17).map fun i => cMem (v + 348) .atLeast (BitVec.ofNat 32 i)
/-- `w += 0, w += 1, .., w += 64` -/
def as : List PA := (List.range 65).map fun i => aMem (w + 348) .add (BitVec.ofNat 32 i)
/-- conditions, conditions, actions, actions, revert -/
def L : Layout :=
  ⟨⟨[⟨t 0, ⟨(cs.take 16).map PC.c, [sNext (t 0) (t 1)]⟩, none, false⟩,
     ⟨t 1, ⟨(cs.drop 16).map PC.c, [sNext (t 1) (t 2)]⟩, none, false⟩,
     ⟨t 2, ⟨[], (as.take 64).map PA.a⟩, some (t 3), false⟩,
     ⟨t 3, ⟨[], (as.drop 64).map PA.a⟩, some (t 4), false⟩,
     ⟨t 4, ⟨[], [sNext (t 0) (t 4), sNext (t 1) (t 4)]⟩, some haltAt, false⟩], [], [v, w]⟩, [(t 0, t 4), (t 1, t 4)], []⟩

theorem laid (a b : W) : L.Laid exBuf [a, b] := Layout.laidB_spec (show L.laidB exBuf 2 = true by decide +kernel)

theorem chunks_cs : chunks 15 cs = [cs.take 16, cs.drop 16] := by
  rw [chunks_cons 15 (by simp [cs]), chunks_cons 15 (by simp [cs])]
  have h1 : (cs.drop (15 + 1)).take (15 + 1) = cs.drop 16 := rfl
  have h2 : (cs.drop (15 + 1)).drop (15 + 1) = [] := rfl
  rw [h1, h2, chunks_nil]

theorem chunks_as : chunks 63 as = [as.take 64, as.drop 64] := by
  rw [chunks_cons 63 (by simp [as]), chunks_cons 63 (by simp [as])]
  have h1 : (as.drop (63 + 1)).take (63 + 1) = as.drop 64 := rfl
  have h2 : (as.drop (63 + 1)).drop (63 + 1) = [] := rfl
  rw [h1, h2, chunks_nil]

def code : TriggerCode L ((chunks 15 cs).map (fun c => (.skip, c))) (.seqs ((chunks 63 as).map (.trig []))) (t 0) haltAt where
  cend := t 4
  a := t 2
  ts := [t 0, t 1]
  conds := by
    rw [chunks_cs]
    exact .cons (fun _ _ => ⟨0, 0, 0, .skip⟩) (by simp [L]) (placedCB_spec (by decide +kernel)) (by simp [L]) (by decide)
      (.cons (fun _ _ => ⟨0, 0, 0, .skip⟩) (by simp [L]) (placedCB_spec (by decide +kernel)) (by simp [L]) (by decide) (.nil _))
  nodup := by decide
  body := by
    rw [chunks_as]
    intro d _
    refine ⟨0, 0, 0, .seq (m := t 3) (.trig trivial (placedAB_spec (by decide +kernel)) ?_) (.seq (m := t 4) (.trig trivial (placedAB_spec (by decide +kernel)) ?_) .skip)⟩ <;>
      simp [L, Layout.redir]
  revert := by
    rw [chunks_cons 63 (by simp)]
    have h2 : [t 0, t 1].drop (63 + 1) = [] := rfl
    rw [h2, chunks_nil]
    exact .cons (by simp [L]) (.nil _)
  lt := by decide

theorem at_ : TriggerAt L cs as (t 0) haltAt := .ext (Or.inl (by simp [cs])) code

theorem acts_ok (h : L.cell (w + 348)) : ∀ (l : List Nat) (s : Mem), ActsOk L (l.map fun i => aMem (w + 348) .add (BitVec.ofNat 32 i)) s
  | [], _ => trivial
  | _ :: l, _ => ⟨SAct.static_ready (by exact ⟨rfl, rfl, rfl⟩) _ _, h, acts_ok h l _⟩

theorem run_w : ∀ (l : List Nat) (s : Mem), runPA (l.map fun i => aMem (w + 348) .add (BitVec.ofNat 32 i)) s (w + 348) = s (w + 348) + BitVec.ofNat 32 l.sum
  | [], s => by simp [runPA]
  | i :: l, s => by
    rw [List.map_cons, runPA_cons, run_w l, aMem_run, set_eq, List.sum_cons, BitVec.ofNat_add, ← BitVec.add_assoc]
    rfl

/-- The 65 actions happen if and only if `v` is at least 16. -/
theorem run (a b : W) : ∃ m', Reaches ⟨L.mem exBuf [a, b], t 0⟩ ⟨m', haltAt⟩ ∧ L.Ok m' ∧ m' (w + 348) = if 16 ≤ a.toNat then b + 2080 else b := by
  have hl := laid a b
  have hv : L.cell (v + 348) := hl.exCell (i := 0) (by simp)
  have hw : L.cell (w + 348) := hl.exCell (i := 1) (by simp)
  obtain ⟨m', hr, hok, hvw⟩ := C29_trigger hl.wf at_ (s := L.view (L.mem exBuf [a, b]))
    (by
      intro p hp
      simp only [cs, List.mem_map] at hp
      obtain ⟨i, -, rfl⟩ := hp
      exact cMem_ok hv _ _ _)
    (fun _ => acts_ok hw _ _) _ hl.ok.1 rfl
  refine ⟨m', hr, hok, ?_⟩
  have ea := hl.exVal (i := 0) (by simp) []
  have eb := hl.exVal (i := 1) (by simp) []
  have ew : m' (w + 348) = L.view m' (w + 348) := (hl.exView (i := 1) (by simp) m').symm
  rw [ew, hvw]
  have hh : holdsAll (L.view (L.mem exBuf [a, b])) cs = decide (16 ≤ a.toNat) := by
    rw [Bool.eq_iff_iff]
    simp only [holdsAll, cs, List.all_map, List.all_eq_true, List.mem_range, Function.comp, cMem_holds, v, ea, compare, decide_eq_true_eq, BitVec.le_def]
    constructor
    · intro h
      simpa using h 16 (by omega)
    · intro h i hi
      simp only [BitVec.toNat_ofNat]
      simp only [List.getElem_cons_zero]
      omega
  rw [hh]
  simp only [decide_eq_true_eq]
  split
  · show runPA as _ (w + 348) = _
    unfold as
    rw [run_w]
    simp only [w, eb]
    rfl
  · simp only [w, eb]
    rfl

end ExTrigger

/-! ## `preserved=False` -/

namespace ExTriggerOnce
open ExTrigger

/-- The same with `preserved=False` (triggerdef.py:94-116): the last action redirects the first trigger, and the revert trigger is skipped. -/
def N : Layout :=
  ⟨⟨[⟨t 0, ⟨(cs.take 16).map PC.c, [sNext (t 0) (t 1)]⟩, none, false⟩,
     ⟨t 1, ⟨(cs.drop 16).map PC.c, [sNext (t 1) (t 2)]⟩, none, false⟩,
     ⟨t 2, ⟨[], (as.take 64).map PA.a⟩, some (t 3), false⟩,
     ⟨t 3, ⟨[], (as.drop 64).map PA.a ++ [sNext (t 0) haltAt]⟩, some haltAt, false⟩,
     ⟨t 4, ⟨[], [sNext (t 0) (t 4), sNext (t 1) (t 4)]⟩, some haltAt, false⟩], [], [v, w]⟩, [(t 0, t 4), (t 1, t 4)], []⟩

/-- Execute the trigger, then change `v`, then execute it again: where control is and what `w` is after each. -/
def twice (a b a' : W) : Option (Nat × W × Nat × W) :=
  (stepN 4 ⟨N.mem exBuf [a, b], t 0⟩).bind fun c1 =>
    (stepN 4 ⟨c1.mem.set (v + 348) a', t 0⟩).map fun c2 => (c1.pc, c1.mem (w + 348), c2.pc, c2.mem (w + 348))

/-- **C28 is false** for extended triggers: with `v = 16` the actions are performed at the first execution, and at the second execution,
with `v = 15`, they are performed again, although they should be performed once only, and although one condition does not even hold. -/
theorem C28_counterexample_extended : twice 16 0 15 = some (haltAt, 2080, haltAt, 4160) := by decide +kernel

end ExTriggerOnce

end Eud.SC
