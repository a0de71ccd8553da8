import Verif.Machine.Emit
import Verif.Lib.ConstMulDiv
/-
Examples for C20 and C21 with constants.
-/

namespace Eud.SC

namespace ExC20
def st : Stmt := constMul (exVar 0 + 348) (exVar 1 + 348) 12345
theorem laid : (exLayout st 2).Laid exBuf [1234567, 5] := Layout.laidB_spec (by decide +kernel)

/-- 1234567 times 12345 -/
example : ∃ m', Reaches ⟨(exLayout st 2).mem exBuf [1234567, 5], exEntry st⟩ ⟨m', haltAt⟩ ∧ m' (exVar 1 + 348) = 1234567 * 12345 := by
  obtain ⟨o, m', h1, rfl, h2, -⟩ := exRun (by decide +kernel) laid
    (C20_const 12345 (laid.exCell (i := 0) (by decide)) (laid.exCell (i := 1) (by decide)) (by decide) _).wp
  rw [laid.exView (by decide), laid.exVal (by decide)] at h2
  exact ⟨m', h1, h2⟩
end ExC20

namespace ExC21
def st : Stmt := constDiv (exVar 0 + 348) (exVar 1 + 348) 100
theorem laid : (exLayout st 2).Laid exBuf [4294967295, 5] := Layout.laidB_spec (by decide +kernel)

/-- `2**32 - 1` divided by 100 -/
example : ∃ m', Reaches ⟨(exLayout st 2).mem exBuf [4294967295, 5], exEntry st⟩ ⟨m', haltAt⟩ ∧ (m' (exVar 1 + 348)).toNat = 42949672 ∧
    (m' (exVar 0 + 348)).toNat = 95 := by
  obtain ⟨o, m', h1, rfl, h2, h3, -⟩ := exRun (by decide +kernel) laid
    (C21_const 100 (by decide) (laid.exCell (i := 0) (by decide)) (laid.exCell (i := 1) (by decide)) (by decide) _).wp
  rw [laid.exView (by decide), laid.exVal (by decide)] at h2 h3
  exact ⟨m', h1, h2, h3⟩
end ExC21

namespace ExC21r
def st : Stmt := constRem (exVar 0 + 348) 100
theorem laid : (exLayout st 1).Laid exBuf [4294967295] := Layout.laidB_spec (by decide +kernel)

example : ∃ m', Reaches ⟨(exLayout st 1).mem exBuf [4294967295], exEntry st⟩ ⟨m', haltAt⟩ ∧ (m' (exVar 0 + 348)).toNat = 95 := by
  obtain ⟨o, m', h1, rfl, h3, -⟩ := exRun (by decide +kernel) laid (C21_const_rem 100 (by decide) (laid.exCell (i := 0) (by decide)) _).wp
  rw [laid.exView (by decide), laid.exVal (by decide)] at h3
  exact ⟨m', h1, h3⟩
end ExC21r

namespace ExC21p
def st : Stmt := constDivPow (exVar 0 + 348) (exVar 1 + 348) (2 ^ 5)
theorem laid : (exLayout st 2).Laid exBuf [1000, 5] := Layout.laidB_spec (by decide +kernel)

example : ∃ m', Reaches ⟨(exLayout st 2).mem exBuf [1000, 5], exEntry st⟩ ⟨m', haltAt⟩ ∧ (m' (exVar 1 + 348)).toNat = 31 ∧
    (m' (exVar 0 + 348)).toNat = 8 := by
  obtain ⟨o, m', h1, rfl, h2, h3, -⟩ := exRun (by decide +kernel) laid
    (C21_const_pow 5 (laid.exCell (i := 0) (by decide)) (laid.exCell (i := 1) (by decide)) (by decide) _).wp
  rw [laid.exView (by decide), laid.exVal (by decide)] at h2 h3
  exact ⟨m', h1, h2, h3⟩
end ExC21p

end Eud.SC
