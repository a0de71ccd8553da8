import Verif.Machine.Emit
import Verif.Machine.Track
import Verif.Lib.Switch
/-
Examples for C26.
-/

namespace Eud.SC

/-! ## Five labels far apart -/

namespace ExSearch

def v : Nat := exVar 0
def t (i : Nat) : Nat := trigAt i
/-- The cases are at `haltAt`, `haltAt + 0x1000` and so on. -/
def tgt (i : Nat) : Nat := haltAt + 0x1000 * i
def dflt : Nat := tgt 9
def mk : Cmp → W → PC := fun c k => cMemX (v + 348) c k 0xFFFF
def keys : List (W × Nat) := [(3, tgt 0), (100, tgt 1), (2000, tgt 2), (30000, tgt 3), (60000, tgt 4)]
/-- 0: `>= 2000`; 1-4: 3, 100; 5: `>= 30000`; 6-8: 2000; 9-13: 30000, 60000 -/
def L : Layout :=
  ⟨⟨[⟨t 0, ⟨[(mk .atLeast 2000).c], [(t 0, t 5)].map nx⟩, none, false⟩,
     ⟨t 1, ⟨[(mk .exactly 3).c], [(t 1, t 2)].map nx⟩, none, false⟩,
     ⟨t 2, ⟨[], [(t 1, t 3)].map nx⟩, some (tgt 0), false⟩,
     ⟨t 3, ⟨[(mk .exactly 100).c], [(t 3, t 4)].map nx⟩, none, false⟩,
     ⟨t 4, ⟨[], [(t 3, dflt)].map nx⟩, some (tgt 1), false⟩,
     ⟨t 5, ⟨[(mk .atLeast 30000).c], [(t 5, t 9), (t 0, t 1)].map nx⟩, none, false⟩,
     ⟨t 6, ⟨[(mk .exactly 2000).c], [(t 6, t 7), (t 0, t 1)].map nx⟩, none, false⟩,
     ⟨t 7, ⟨[], [(t 6, t 8)].map nx⟩, some (tgt 2), false⟩,
     ⟨t 8, ⟨[], [(t 0, t 1)].map nx⟩, some dflt, false⟩,
     ⟨t 9, ⟨[(mk .exactly 30000).c], [(t 9, t 10), (t 5, t 6)].map nx⟩, none, false⟩,
     ⟨t 10, ⟨[], [(t 9, t 11)].map nx⟩, some (tgt 3), false⟩,
     ⟨t 11, ⟨[(mk .exactly 60000).c], [(t 11, t 12), (t 5, t 6)].map nx⟩, none, false⟩,
     ⟨t 12, ⟨[], [(t 11, t 13)].map nx⟩, some (tgt 4), false⟩,
     ⟨t 13, ⟨[], [(t 5, t 6)].map nx⟩, some dflt, false⟩], [], [v]⟩,
    [(t 0, t 1), (t 1, t 3), (t 3, dflt), (t 5, t 6), (t 6, t 8), (t 9, t 11), (t 11, t 13)], []⟩

theorem laid (a : W) : L.Laid exBuf [a] := Layout.laidB_spec (show L.laidB exBuf 1 = true by decide +kernel)

theorem search : Search L mk dflt keys [] (t 0) [t 0, t 1, t 3, t 5, t 6, t 9, t 11] :=
  .many (ts1 := [t 1, t 3]) (ts2 := [t 5, t 6, t 9, t 11]) (by decide) rfl (by simp [L]) (by simp [L]) (by decide)
    (.two (j := t 2) (ts := [t 3]) (by simp [L]) (by simp [L]) (by simp [L]) (by decide) (.one (j := t 4) (g := dflt) (by simp [L]) (by simp [L]) (by simp [L]) (by decide) (by simp)))
    (.many (ts1 := [t 6]) (ts2 := [t 9, t 11]) (by decide) rfl (by simp [L]) (by simp [L]) (by decide)
      (.one (j := t 7) (g := t 8) (by simp [L]) (by simp [L]) (by simp [L]) (by decide) (by simp [L]))
      (.two (j := t 10) (ts := [t 11]) (by simp [L]) (by simp [L]) (by simp [L]) (by decide)
        (.one (j := t 12) (g := t 13) (by simp [L]) (by simp [L]) (by simp [L]) (by decide) (by simp [L]))))

example (a : W) : ∃ m', Reaches ⟨L.mem exBuf [a], t 0⟩ ⟨m', caseOf keys dflt (a &&& 0xFFFF)⟩ ∧ L.Ok m' ∧ m' (v + 348) = a := by
  have hl := laid a
  have hv : L.cell (v + 348) := hl.exCell (i := 0) (by simp)
  obtain ⟨m', hr, hok, e⟩ := C26_search hl.wf (Sel.mem hv 0xFFFF) search (by decide) (by decide) (L.view (L.mem exBuf [a])) _ hl.ok.1 rfl
  have ea := hl.exVal (i := 0) (by simp) []
  refine ⟨m', ?_, hok, ?_⟩
  · simp only [v, ea] at hr
    exact hr
  · have ew : m' (v + 348) = L.view m' (v + 348) := (hl.exView (i := 0) (by simp) m').symm
    rw [ew, e]
    simp only [v, ea]
    rfl

end ExSearch

/-! ## Two cases -/

namespace ExChain

def v : Nat := exVar 0
def t (i : Nat) : Nat := trigAt i
def tgt (i : Nat) : Nat := haltAt + 0x1000 * i
def dflt : Nat := tgt 9
def mk : Cmp → W → PC := fun c k => cMemX (v + 348) c k 0xFFFFFFFF
def cases : List (W × Nat) := [(7, tgt 0), (2, tgt 1)]
def L : Layout :=
  ⟨⟨[⟨t 0, ⟨[], [⟨none, .set, none, some 0xFFFFFFFF⟩]⟩, some (t 1), false⟩,
     ⟨t 1, ⟨[(mk .exactly 7).c], [sNext (t 1) (tgt 0), sMem (t 0 + 344) .set (epd (t 1) + 1), sMem (t 0 + 348) .set (BitVec.ofNat 32 (t 2))]⟩, none, false⟩,
     ⟨t 2, ⟨[(mk .exactly 2).c], [sNext (t 2) (tgt 1), sMem (t 0 + 344) .set (epd (t 2) + 1), sMem (t 0 + 348) .set (BitVec.ofNat 32 dflt)]⟩, none, false⟩], [], [v]⟩,
    [(t 1, t 2), (t 2, dflt)], []⟩

/-- `restore` at first puts back the next pointer of the first comparison (swblock.py:166). -/
def holes : List (Nat × W) := [(t 0 + 344, epd (t 1 + 4)), (t 0 + 348, BitVec.ofNat 32 (t 2))]

theorem laid (a : W) : L.Laid exBuf [a] := Layout.laidB_spec (show L.laidB exBuf 1 = true by decide +kernel)

def code : ChainSwitch L mk (t 0) dflt cases where
  e := t 1
  rb := by simp [L]
  ch := .cons (n := t 2) (by simp [L]) (by simp [L]) (by decide) (by decide) (.cons (n := dflt) (by simp [L]) (by simp [L]) (by decide) (by decide) .nil)
  c344 := (laid 0).cellB (by decide +kernel)
  c348 := (laid 0).cellB (by decide +kernel)

theorem mem_ok (a : W) : Restores L (t 0) [] (L.view (L.mem exBuf [a] holes)) := by
  have hl := laid a
  refine ⟨(t 1, t 2), by simp [L], ?_, ?_, by decide, Eff.nil _⟩
  · rw [Layout.view_at code.c344.2]
    exact (hl.hole code.rb (o := 344) (by decide) (by decide +kernel) (by omega) holes).2.trans (by decide +kernel)
  · rw [Layout.view_at code.c348.2]
    exact (hl.hole code.rb (o := 348) (by decide) (by decide +kernel) (by omega) holes).2.trans (by decide +kernel)

/-- The switch is executed twice, with any two values. -/
example (a b : W) : ∃ m1 m2, Reaches ⟨L.mem exBuf [a] holes, t 0⟩ ⟨m1, caseOf cases dflt a⟩ ∧ Reaches ⟨m1.set (v + 348) b, t 0⟩ ⟨m2, caseOf cases dflt b⟩ := by
  have hl := laid a
  have hv : L.cell (v + 348) := hl.exCell (i := 0) (by simp)
  obtain ⟨d1, s1, r1, -, g1⟩ := C26_chain hl.wf (Sel.mem hv 0xFFFFFFFF) code (mem_ok a)
  rw [Layout.redir_nil] at g1
  obtain ⟨m1, e1, o1, w1⟩ := g1 _ (hl.ok holes).1 rfl
  have hv1 : (L.redir d1).cell (v + 348) := (Layout.redir_cell _ _ _).2 hv
  have n1 : t 0 + 344 ≠ v + 348 := by decide
  have n2 : t 0 + 348 ≠ v + 348 := by decide
  have r1' : Restores L (t 0) d1 (s1.set (v + 348) b) := by
    obtain ⟨p, hp, q1, q2, q3⟩ := r1
    exact ⟨p, hp, by rw [set_ne n1]; exact q1, by rw [set_ne n2]; exact q2, q3⟩
  obtain ⟨d2, s2, -, -, g2⟩ := C26_chain hl.wf (Sel.mem hv 0xFFFFFFFF) code r1'
  obtain ⟨m2, e2, -, -⟩ := g2 _ (o1.set hv1 b) (by rw [Layout.view_set hv1.2, w1])
  refine ⟨m1, m2, ?_, ?_⟩
  · have ea := hl.exVal (i := 0) (by simp) holes
    simp only [v, ea] at e1
    simpa only [and_full, List.getElem_cons_zero] using e1
  · simpa only [set_eq, and_full] using e2

end ExChain

/-! ## Two labels with one bit of difference -/

namespace ExPair

def v : Nat := exVar 0
def t (i : Nat) : Nat := trigAt i
def tgt : Nat := haltAt
def dflt : Nat := haltAt + 0x1000
/-- `EUDSwitch(v, 0xFF)` with 9 and 13 -/
def L : Layout :=
  ⟨⟨[⟨t 0, ⟨[(cMemX (v + 348) .exactly 9 0xFB).c], [sNext (t 0) (t 1)]⟩, none, false⟩, ⟨t 1, ⟨[], [sNext (t 0) dflt]⟩, some tgt, false⟩], [], [v]⟩, [(t 0, dflt)], []⟩

theorem laid (a : W) : L.Laid exBuf [a] := Layout.laidB_spec (show L.laidB exBuf 1 = true by decide +kernel)

example (a : W) : ∃ m', Reaches ⟨L.mem exBuf [a], t 0⟩ ⟨m', if a &&& 0xFF = 9 ∨ a &&& 0xFF = 13 then tgt else dflt⟩ := by
  have hl := laid a
  have hv : L.cell (v + 348) := hl.exCell (i := 0) (by simp)
  obtain ⟨m', hr, -, -⟩ := C26_pair hl.wf hv (mask := 0xFF) (k0 := 9) (k1 := 13) (by decide) (by decide) (i := 2) (by decide) (by decide) (tgt := tgt) (dflt := dflt)
    (.last (t 0) (t 1) _ [] (by simp) (by simp) (placedCB_spec (by decide +kernel)) trivial ⟨by simp [L], by simp [L], by simp [L], by decide⟩)
    (L.view (L.mem exBuf [a])) _ hl.ok.1 rfl
  have ea := hl.exVal (i := 0) (by simp) []
  simp only [v, ea, caseOf_cons, caseOf_one] at hr
  refine ⟨m', ?_⟩
  have : (if a &&& 0xFF = 9 then tgt else if a &&& 0xFF = 13 then tgt else dflt) = if a &&& 0xFF = 9 ∨ a &&& 0xFF = 13 then tgt else dflt := by grind
  rw [← this]
  exact hr

end ExPair

/-! ## A jump table -/

namespace ExJump

def v : Nat := exVar 0
def t (i : Nat) : Nat := trigAt i
def tgt (i : Nat) : Nat := haltAt + 0x1000 * i
def dflt : Nat := tgt 9
def tbl : Nat := 0xE000000
def mask : W := 0xFFFF
/-- bits 2 and 4 differ; bit 0 is always set -/
def cases : List (W × Nat) := [(0x15, tgt 0), (1, tgt 1), (0x11, tgt 2)]
def L0 : Layout :=
  ⟨⟨[⟨t 0, ⟨[(cMemX (v + 348) .exactly 1 0xFFEB).c], [sNext (t 0) (t 1)]⟩, none, false⟩,
     ⟨t 1, ⟨[], [sNext (t 0) dflt]⟩, some (t 2), false⟩,
     ⟨t 2, ⟨[], [sNext (t 4) tbl]⟩, some (t 3), false⟩,
     ⟨t 3, ⟨[(cMemX (v + 348) .atLeast 1 (pow2 2)).c], [sMem (t 4 + 4) .add (BitVec.ofNat 32 (20 * 2 ^ 0))]⟩, some (t 4), false⟩,
     ⟨t 4, ⟨[(cMemX (v + 348) .atLeast 1 (pow2 4)).c], [sMem (t 4 + 4) .add (BitVec.ofNat 32 (20 * 2 ^ 1))]⟩, none, false⟩], [], [v]⟩, [(t 0, dflt)], []⟩
def table : List (Nat × Nat) := (jumpTargets cases dflt).zipIdx.flatMap fun p => [(tbl + 20 * p.2, p.1), (tbl + 20 * p.2 + 2372, 8)]
def L : Layout := (L0.tracks table).hide (t 4 + 4)

theorem targets : jumpTargets cases dflt = [tgt 1, dflt, tgt 2, tgt 0] := by
  have hb : bitPlaces (keyXor cases) = [2, 4] := by decide +kernel
  rw [jumpTargets, hb, keyList_eq (p := 0) (by simp [Asc])]
  decide +kernel

def table' : List (Nat × Nat) := [tgt 1, dflt, tgt 2, tgt 0].zipIdx.flatMap fun p => [(tbl + 20 * p.2, p.1), (tbl + 20 * p.2 + 2372, 8)]
def holes : List (Nat × W) := table'.map fun p => (p.1 + 4, BitVec.ofNat 32 p.2)
theorem table_eq : table = table' := by rw [table, targets]; rfl

theorem laid (a : W) : L0.Laid exBuf [a] := Layout.laidB_spec (show L0.laidB exBuf 1 = true by decide +kernel)
theorem wf : L.Wf := by
  have h : L0.tracksB table' = true := by decide +kernel
  refine ((laid 0).tracks (table_eq ▸ h)).hide (Layout.freeB_spec ?_)
  rw [table_eq]
  decide +kernel
theorem cell : L.cell (v + 348) := ⟨((laid 0).exCell (i := 0) (by simp)).1, wf.val v (by simp [L, L0, Layout.hide, Layout.tracks])⟩

def code : JumpCode L (v + 348) mask cases dflt (t 0) where
  r := t 2
  b0 := t 3
  j := t 4
  tbl := tbl
  inv := by
    rw [if_pos (by decide +kernel), show invMask cases mask = 0xFFEB by decide +kernel, show keyAnd cases = 1 by decide +kernel]
    exact .last (t 0) (t 1) _ [] (by simp) (by simp) (placedCB_spec (by decide +kernel)) trivial
      ⟨by simp [L, L0, Layout.hide, Layout.tracks], by simp [L, L0, Layout.hide, Layout.tracks], by simp [L, L0, Layout.hide, Layout.tracks], by decide⟩
  rb := by simp [L, L0, Layout.hide, Layout.tracks]
  bits := by
    rw [show bitPlaces (keyXor cases) = [2, 4] by decide +kernel]
    exact .more (n := t 4) (by simp [L, L0, Layout.hide, Layout.tracks]) (.last (by simp [L, L0, Layout.hide, Layout.tracks]))
  tab := by
    intro i u hi
    have hz : (u, i) ∈ (jumpTargets cases dflt).zipIdx := by simpa [List.mem_zipIdx_iff_getElem?] using hi
    have : ∀ q ∈ [(tbl + 20 * i, u), (tbl + 20 * i + 2372, 8)], q ∈ table := fun q hq => List.mem_flatMap.2 ⟨_, hz, hq⟩
    exact ⟨List.mem_append_left _ (this _ (by simp)), List.mem_append_left _ (this _ (by simp))⟩
  lt := by rw [targets]; decide
  hid := by simp [L, Layout.hide]
  dat := ((laid 0).cellB (x := t 4 + 4) (by decide +kernel)).1
  hm := by decide
  hr := by
    simp only [L, Layout.hide, Layout.tracks, table_eq]
    decide +kernel

example (a : W) : ∃ m', Reaches ⟨L0.mem exBuf [a] holes, t 0⟩ ⟨m', caseOf cases dflt (a &&& mask)⟩ ∧ m' (v + 348) = a := by
  have hl := laid a
  have ok := (hl.ok holes).1
  have hok : L.Ok (L0.mem exBuf [a] holes) := by
    refine ⟨ok.prog, ok.mask, fun r hr => ?_⟩
    rcases List.mem_append.1 hr with hr | hr
    · rw [table_eq] at hr
      simp only [table', List.zipIdx_cons, List.zipIdx_nil, List.flatMap_cons, List.flatMap_nil, List.cons_append, List.nil_append, List.mem_cons, List.not_mem_nil, or_false] at hr
      rcases hr with rfl | rfl | rfl | rfl | rfl | rfl | rfl | rfl <;> rfl
    · exact ok.rest r hr
  obtain ⟨m', hr, -, e⟩ := C26_jump wf cell (by simp [cases]) (by decide) code (L.view (L0.mem exBuf [a] holes)) _ hok rfl
  have ea : L.view (L0.mem exBuf [a] holes) (v + 348) = a := by
    rw [Layout.view_at cell.2]
    exact (hl.ok holes).2 0 (by simp)
  rw [ea] at hr
  refine ⟨m', hr, ?_⟩
  rw [← Layout.view_at (m := m') cell.2, e, ea]

end ExJump

end Eud.SC
