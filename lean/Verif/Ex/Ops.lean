import Verif.Machine.Emit
import Verif.Lib.Ops
/-
Examples for C53 and C22: some operators, laid out and run.
-/

namespace Eud.SC

namespace ExSub
def st : Stmt := .seq (opSub (exVar 2) (exVar 0) (exVar 1)) (.seq (opSubT (exVar 0) (exVar 2)) (opNeg (exVar 1) (exVar 2)))
theorem laid : (exLayout st 3).Laid exBuf [5, 7, 1] := Layout.laidB_spec (by decide +kernel)

/-- `t = 5 - 7`, `t = 5 - t`, `y = -t` -/
example : ∃ m', Reaches ⟨(exLayout st 3).mem exBuf [5, 7, 1], exEntry st⟩ ⟨m', haltAt⟩ ∧ m' (exVar 1 + 348) = 0xFFFFFFF9 := by
  obtain ⟨o, m', h1, rfl, h2⟩ := exRun (holes := []) (by decide +kernel) laid
    (Does.seq ((C53_sub laid.wf (laid.exVars (i := 2) (by decide)) (laid.exVars (i := 0) (by decide)) (laid.exVars (i := 1) (by decide)) (by decide) (by decide) _).mono
      fun s1 g1 => Does.seq ((C53_sub_temp laid.wf (laid.exVars (i := 0) (by decide)) (laid.exVars (i := 2) (by decide)) (by decide) s1).mono
        fun s2 g2 => (C53_neg laid.wf (laid.exVars (i := 1) (by decide)) (laid.exVars (i := 2) (by decide)) (by decide) s2).mono
          (Q' := fun s3 => s3 (exVar 1 + 348) = 0xFFFFFFF9) fun s3 g3 => by
            rw [g3.1, g2.1, g1.1, g1.2 _ (by decide), laid.exVal (by decide), laid.exVal (by decide)]; decide)) : Does _ st _ _).wp
  rw [laid.exView (by decide)] at h2
  exact ⟨m', h1, h2⟩
end ExSub

namespace ExNand
def st : Stmt := opNand (exVar 2) (exVar 0) (exVar 1) (trigAt 1 + 328)
theorem laid : (exLayout st 3).Laid exBuf [0x12345678, 0x0FF00FF0, 1] := Layout.laidB_spec (by decide +kernel)

example : ∃ m', Reaches ⟨(exLayout st 3).mem exBuf [0x12345678, 0x0FF00FF0, 1], exEntry st⟩ ⟨m', haltAt⟩ ∧ m' (exVar 2 + 348) = 0xFDCFF98F := by
  obtain ⟨o, m', h1, rfl, h2, -⟩ := exRun (holes := []) (by decide +kernel) laid
    (C22_nand laid.wf (laid.exVars (i := 2) (by decide)) (laid.exVars (i := 0) (by decide)) (laid.exVars (i := 1) (by decide))
      (laid.cellB (by decide +kernel)) (by decide) (by decide) (by decide) (by decide) _).wp
  rw [laid.exView (by decide), laid.exVal (by decide), laid.exVal (by decide)] at h2
  exact ⟨m', h1, h2⟩
end ExNand

namespace ExOr
def st : Stmt := .seq (opIor (exVar 0) (exVar 1) (trigAt 1 + 328)) (opIand (exVar 0) (exVar 2) (trigAt 0 + 328))
theorem laid : (exLayout st 3).Laid exBuf [0x12345678, 0x0FF00FF0, 0xFFFF] := Layout.laidB_spec (by decide +kernel)

example : ∃ m', Reaches ⟨(exLayout st 3).mem exBuf [0x12345678, 0x0FF00FF0, 0xFFFF], exEntry st⟩ ⟨m', haltAt⟩ ∧ m' (exVar 0 + 348) = 0x5FF8 := by
  obtain ⟨o, m', h1, rfl, h2⟩ := exRun (holes := []) (by decide +kernel) laid
    (Does.seq ((C53_ior laid.wf (laid.exVars (i := 0) (by decide)) (laid.exVars (i := 1) (by decide)) (laid.cellB (by decide +kernel)) (by decide) _).mono
      fun s1 g1 => (C53_iand laid.wf (laid.exVars (i := 0) (by decide)) (laid.exVars (i := 2) (by decide)) (laid.cellB (by decide +kernel)) (by decide) (by decide) s1).mono
          (Q' := fun s3 => s3 (exVar 0 + 348) = 0x5FF8) fun s3 g3 => by
            rw [g3.1, g1.1, g1.2 _ (by decide), laid.exVal (by decide), laid.exVal (by decide), laid.exVal (by decide)]; decide) : Does _ st _ _).wp
  rw [laid.exView (by decide)] at h2
  exact ⟨m', h1, h2⟩
end ExOr

namespace ExSplit
def st : Stmt := bitSplit (exVar 32 + 348) (fun i => exVar i + 348)
def vs : List W := List.replicate 32 7 ++ [0x12345678]
theorem laid : (exLayout st 33).Laid exBuf vs := Layout.laidB_spec (by decide +kernel)

example : ∃ m', Reaches ⟨(exLayout st 33).mem exBuf vs, exEntry st⟩ ⟨m', haltAt⟩ ∧ m' (exVar 3 + 348) = 1 ∧ m' (exVar 31 + 348) = 0 := by
  obtain ⟨o, m', h1, rfl, h2, -⟩ := exRun (holes := []) (by decide +kernel) laid
    (C22_bitsplit (laid.exCell (i := 32) (by decide)) (fun i hi => laid.exCell (i := i) (by simp [vs]; omega)) (by simp only [exVar]; omega)
      (by simp only [exVar]; omega) _).wp
  have e1 := h2 3 (by omega)
  have e2 := h2 31 (by omega)
  rw [laid.exView (by decide), laid.exVal (by decide)] at e1 e2
  exact ⟨m', h1, e1, e2⟩
end ExSplit

namespace ExXor
def x : Nat := exVar 0
def y : Nat := exVar 1
def z : Nat := exVar 2
def ad : Nat := trigAt 20
/-- `z = x ^ y`, at 10 `z = x ^ x`, at 13 `x -= y`, at 14 `x -= x` -/
def L : Layout :=
  ⟨⟨[⟨trigAt 0, ⟨[], [sMask y 0x55555555, sDest x (z + 348), sModi x .set, sDest y (z + 348), sModi y .add, sNext x y, sNext y (trigAt 1)]⟩, some x, false⟩,
     ⟨trigAt 1, ⟨[], [sMask y 0xAAAAAAAA, sNext y (trigAt 2)]⟩, some y, false⟩,
     ⟨trigAt 2, ⟨[], [sMask y 0xFFFFFFFF]⟩, some haltAt, false⟩,
     ⟨trigAt 10, ⟨[], [sMask x 0x55555555, sDest x (z + 348), sModi x .set, sDest x (z + 348), sModi x .add, sNext x x, sNext x (trigAt 11)]⟩, some x, false⟩,
     ⟨trigAt 11, ⟨[], [sMask x 0xAAAAAAAA, sNext x (trigAt 12)]⟩, some x, false⟩,
     ⟨trigAt 12, ⟨[], [sMask x 0xFFFFFFFF]⟩, some haltAt, false⟩,
     ⟨trigAt 13, ⟨[], [sMem (x + 348) .add 1, sMem (ad + 348) .set 0xFFFFFFFF, sDest y (ad + 348), sModi y .sub, sNext y ad, sDest ad (x + 348), sNext ad haltAt]⟩,
       some y, false⟩,
     ⟨trigAt 14, ⟨[], [sMem (x + 348) .add 1, sMem (ad + 348) .set 0xFFFFFFFF, sDest x (ad + 348), sModi x .sub, sNext x ad, sDest ad (x + 348), sNext ad haltAt]⟩,
       some x, false⟩,
     addorBlk ad], [], [x, y, z]⟩, [], []⟩
theorem laid : L.Laid exBuf [0x12345678, 0x0FF00FF0, 3] := Layout.laidB_spec (by decide +kernel)

theorem c1 : XorCode L z x y (trigAt 0) (trigAt 1) (trigAt 2) haltAt :=
  ⟨by simp [L], by simp [L], by simp [L], by simp [L], by simp [L], by simp [L], by decide, by decide, by decide⟩
theorem c2 : XorCode L z x x (trigAt 10) (trigAt 11) (trigAt 12) haltAt :=
  ⟨by simp [L], by simp [L], by simp [L], by simp [L], by simp [L], by simp [L], by decide, by decide, by decide⟩
theorem c3 : IsubCode L x y ad (trigAt 13) haltAt :=
  ⟨by simp [L], by simp [L], by simp [L], by simp [L], laid.cellB (by decide +kernel), laid.cellB (by decide +kernel), laid.cellB (by decide +kernel), by decide,
   by decide, by decide, by decide, by decide⟩
theorem c4 : IsubCode L x x ad (trigAt 14) haltAt :=
  ⟨by simp [L], by simp [L], by simp [L], by simp [L], laid.cellB (by decide +kernel), laid.cellB (by decide +kernel), laid.cellB (by decide +kernel), by decide,
   by decide, by decide, by decide, by decide⟩

def m0 : Mem := L.mem exBuf [0x12345678, 0x0FF00FF0, 3] [(ad + 328, 0xFFFFFFFF)]

theorem mask0 : L.view m0 (ad + 328) = 0xFFFFFFFF := by
  have hc : L.cell (ad + 328) := laid.cellB (by decide +kernel)
  rw [Layout.view_at hc.2]
  decide +kernel

theorem val (i : Nat) (h : i < 3) : L.view m0 (exVar i + 348) = [0x12345678, 0x0FF00FF0, 3][i] := laid.exVal h _

example : ∃ m', Reaches ⟨m0, trigAt 0⟩ ⟨m', haltAt⟩ ∧ m' (z + 348) = 0x1DC45988 := by
  obtain ⟨m', h1, -, h2⟩ := C53_xor laid.wf c1 (by decide) (by decide) (L.view m0) m0 (laid.ok _).1 rfl
  refine ⟨m', h1, ?_⟩
  have e := congrFun h2 (z + 348)
  rw [z, laid.exView (i := 2) (by decide), set_eq, x, y, val 0 (by decide), val 1 (by decide)] at e
  exact e

/-- not 0 -/
example : ∃ m', Reaches ⟨m0, trigAt 10⟩ ⟨m', haltAt⟩ ∧ m' (z + 348) = 0x1234567B := by
  obtain ⟨m', h1, -, h2⟩ := C53_counterexample_xor_self laid.wf c2 (by decide) (L.view m0) m0 (laid.ok _).1 rfl
  refine ⟨m', h1, ?_⟩
  have e := congrFun h2 (z + 348)
  rw [z, laid.exView (i := 2) (by decide), set_eq, x, val 2 (by decide), val 0 (by decide)] at e
  exact e

example : ∃ m', Reaches ⟨m0, trigAt 13⟩ ⟨m', haltAt⟩ ∧ m' (x + 348) = 0x02444688 := by
  obtain ⟨s', g, -, h⟩ := C53_isub laid.wf c3 (by decide) mask0
  obtain ⟨m', h1, -, h2⟩ := g m0 (laid.ok _).1 rfl
  refine ⟨m', h1, ?_⟩
  rw [← h2, x, y, laid.exView (i := 0) (by decide), val 0 (by decide), val 1 (by decide)] at h
  exact h

/-- not 0 -/
example : ∃ m', Reaches ⟨m0, trigAt 14⟩ ⟨m', haltAt⟩ ∧ m' (x + 348) = 0xFFFFFFFF := by
  obtain ⟨s', g, h⟩ := C53_counterexample_isub_self laid.wf c4 mask0
  obtain ⟨m', h1, -, h2⟩ := g m0 (laid.ok _).1 rfl
  refine ⟨m', h1, ?_⟩
  rw [← h2, x, laid.exView (i := 0) (by decide)] at h
  exact h
end ExXor

end Eud.SC
