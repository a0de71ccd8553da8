import Verif.Lib.Ops
/-
C23: comparisons of variables (core/variable/eudv.py:557-622, core/variable/vbase.py:178-204).

A comparison is code to run beforehand together with a condition.  A variable given as the value of a condition is stored in the
condition by the code that uses the condition (trigger/tpatcher.py:34-77 `apply_patch_table`, called from `patch_condition`).
-/

namespace Eud.SC

/-- After running `pre`, the conditions `cs` together are true exactly when `P` was true before; `scr` are the dwords used. -/
def CondIs (L : Layout) (pre : Stmt) (cs : List PC) (P : Mem → Bool) (scr : List Nat) : Prop :=
  ∀ s, Does L pre s fun s' => (∀ c ∈ cs, c.Ok L s') ∧ holdsAll s' cs = P s ∧ Only scr s s'

inductive Rel | eq | ne | le | ge | lt | gt
deriving DecidableEq, Repr

/-- The comparison of integers. -/
def Rel.holds : Rel → Int → Int → Bool
  | .eq, a, b => a = b
  | .ne, a, b => a ≠ b
  | .le, a, b => a ≤ b
  | .ge, a, b => a ≥ b
  | .lt, a, b => a < b
  | .gt, a, b => a > b

/-- The 32 bits written for a python integer (pbuffer.rs: constants are reduced modulo `2**32`). -/
def encW (k : Int) : W := BitVec.ofInt 32 k

/-- Never, as a condition of a branch (stockcond.py `Never`). -/
def cNever : PC := ⟨.const false, none⟩

/-- eudv.py:557-622: comparison of the variable `x` with a python integer, `t` being the temporary variable for `!=`. -/
def cmpConst (x t : Nat) : Rel → Int → Stmt × PC
  | .eq, k => (.skip, cMem (x + 348) .exactly (encW k))
  | .ne, k =>
    if encW k = 0 then (.skip, cMem (x + 348) .atLeast 1)
    else if encW k = 0xFFFFFFFF then (.skip, cMem (x + 348) .atMost 0xFFFFFFFE)
    else (opSubC t x (encW k), cMem (t + 348) .atLeast 1)
  | .le, k => (.skip, cMem (x + 348) .atMost (encW k))
  | .ge, k => (.skip, cMem (x + 348) .atLeast (encW k))
  | .lt, k => if k ≤ 0 then (.skip, cNever) else (.skip, cMem (x + 348) .atMost (encW (k - 1)))
  | .gt, k => if 0xFFFFFFFF ≤ k then (.skip, cNever) else (.skip, cMem (x + 348) .atLeast (encW (k + 1)))

/-- The same for EUDLightVariable (vbase.py:178-204), where `!=` exists only for 0 and `2**32 - 1`; `a` is the address of the value. -/
def cmpLight (a : Nat) : Rel → Int → Option PC
  | .eq, k => some (cMem a .exactly (encW k))
  | .ne, k => if encW k = 0 then some (cMem a .atLeast 1) else if encW k = 0xFFFFFFFF then some (cMem a .atMost 0xFFFFFFFE) else none
  | .le, k => some (cMem a .atMost (encW k))
  | .ge, k => some (cMem a .atLeast (encW k))
  | .lt, k => some (cMem a .atMost (encW (k - 1)))
  | .gt, k => some (cMem a .atLeast (encW (k + 1)))

/-- eudv.py:557-622: comparison of two variables; `c` is the address of the condition. -/
def cmpVar (x y t c : Nat) : Rel → Stmt × PC
  | .eq => (.asg [⟨c + 8, .set, .var y⟩], cMemV (x + 348) .exactly c)
  | .ne => (opSub t x y, cMem (t + 348) .atLeast 1)
  | .le => (.asg [⟨c + 8, .set, .var y⟩], cMemV (x + 348) .atMost c)
  | .ge => (.asg [⟨c + 8, .set, .var y⟩], cMemV (x + 348) .atLeast c)
  | .lt => (.asg [⟨c, .set, .var y⟩, ⟨c, .sub, .var x⟩], cMem c .atLeast 1)
  | .gt => (.asg [⟨c, .set, .var x⟩, ⟨c, .sub, .var y⟩], cMem c .atLeast 1)

variable {L : Layout}

theorem CondIs.plain {a : Nat} (ha : L.cell a) {c : Cmp} {k : W} {P : Mem → Bool} (h : ∀ s, compare c (s a) k = P s) :
    CondIs L .skip [cMem a c k] P [] := by
  intro s
  refine Does.skip ⟨by simp; exact cMem_ok ha _ _ _, ?_, Only.refl _ _⟩
  simp only [holdsAll_cons, holdsAll_nil, Bool.and_true, cMem_holds, h]

theorem CondIs.mono {pre : Stmt} {cs : List PC} {P : Mem → Bool} {scr scr' : List Nat} (h : CondIs L pre cs P scr) (hs : ∀ x ∈ scr, x ∈ scr') :
    CondIs L pre cs P scr' := fun s => (h s).mono fun _ h => ⟨h.1, h.2.1, h.2.2.mono hs⟩

theorem toNat_encW {k : Int} (h0 : 0 ≤ k) (h1 : k < 2 ^ 32) : ((encW k).toNat : Int) = k := by
  unfold encW
  rw [BitVec.toNat_ofInt]
  omega

theorem encW_toNat (w : W) : encW (w.toNat : Int) = w := by
  apply BitVec.eq_of_toNat_eq
  have := toNat_encW (k := w.toNat) (by omega) (by have := w.isLt; omega)
  omega

theorem eq_encW {k : Int} (h0 : 0 ≤ k) (h1 : k < 2 ^ 32) (w : W) : w = encW k ↔ (w.toNat : Int) = k := by
  have := toNat_encW h0 h1
  constructor
  · rintro rfl; exact this
  · intro h; apply BitVec.eq_of_toNat_eq; omega

/-- What constants mean: `k` itself between 0 and `2**32`. -/
theorem C23_const (hw : L.Wf) {x t : Nat} (hx : x ∈ L.P.vars) (ht : t ∈ L.P.vars) (hne : t ≠ x) (r : Rel) (k : Int)
    (hk : (0 ≤ k ∧ k < 2 ^ 32) ∨ (r = .lt ∧ k ≤ 0) ∨ (r = .gt ∧ 0xFFFFFFFF ≤ k)) :
    CondIs L (cmpConst x t r k).1 [(cmpConst x t r k).2] (fun s => r.holds (s (x + 348)).toNat k) [t + 348] := by
  have hc := cell_val hw hx
  have hct := cell_val hw ht
  have hlt : ∀ s : Mem, (s (x + 348)).toNat < 2 ^ 32 := fun s => (s (x + 348)).isLt
  have hnever : ∀ P : Mem → Bool, (∀ s, P s = false) → CondIs L .skip [cNever] P [t + 348] := by
    intro P hP s
    exact Does.skip ⟨by simp [cNever, PC.Ok, SCnd.Ready, SCnd.res], by rw [hP]; simp [holdsAll_cons, holdsAll_nil, cNever, PC.holds, SCnd.res, Cnd.holds], Only.refl _ _⟩
  cases r with
  | eq =>
    have hk : 0 ≤ k ∧ k < 2 ^ 32 := by rcases hk with h | ⟨h, -⟩ | ⟨h, -⟩ <;> first | exact h | cases h
    refine (CondIs.plain hc fun s => ?_).mono (by simp)
    simp only [compare, Rel.holds, decide_eq_decide]
    exact eq_encW hk.1 hk.2 _
  | ne =>
    have hk : 0 ≤ k ∧ k < 2 ^ 32 := by rcases hk with h | ⟨h, -⟩ | ⟨h, -⟩ <;> first | exact h | cases h
    have e := toNat_encW hk.1 hk.2
    simp only [cmpConst]
    split
    · rename_i h
      rw [h] at e
      refine (CondIs.plain hc fun s => ?_).mono (by simp)
      simp only [compare, Rel.holds, decide_eq_decide, BitVec.le_def]
      simp at e
      show 1 ≤ _ ↔ _
      omega
    · split
      · rename_i h
        rw [h] at e
        refine (CondIs.plain hc fun s => ?_).mono (by simp)
        simp only [compare, Rel.holds, decide_eq_decide, BitVec.le_def]
        have := hlt s
        simp at e
        show _ ≤ 0xFFFFFFFE ↔ _
        omega
      · intro s
        refine (C53_sub_const hw (encW k) ht hx hne s).mono ?_
        rintro s' ⟨h1, h2⟩
        refine ⟨by simp; exact cMem_ok hct _ _ _, ?_, h2⟩
        simp only [holdsAll_cons, holdsAll_nil, Bool.and_true, cMem_holds, compare, Rel.holds, decide_eq_decide, h1, BitVec.le_def, BitVec.toNat_sub]
        have := hlt s
        have := (encW k).isLt
        show 1 ≤ _ ↔ _
        omega
  | le =>
    have hk : 0 ≤ k ∧ k < 2 ^ 32 := by rcases hk with h | ⟨h, -⟩ | ⟨h, -⟩ <;> first | exact h | cases h
    have e := toNat_encW hk.1 hk.2
    refine (CondIs.plain hc fun s => ?_).mono (by simp)
    simp only [compare, Rel.holds, decide_eq_decide, BitVec.le_def]
    omega
  | ge =>
    have hk : 0 ≤ k ∧ k < 2 ^ 32 := by rcases hk with h | ⟨h, -⟩ | ⟨h, -⟩ <;> first | exact h | cases h
    have e := toNat_encW hk.1 hk.2
    refine (CondIs.plain hc fun s => ?_).mono (by simp)
    simp only [compare, Rel.holds, decide_eq_decide, BitVec.le_def]
    omega
  | lt =>
    simp only [cmpConst]
    split
    · rename_i h
      exact hnever _ fun s => by simp only [Rel.holds, decide_eq_false_iff_not]; omega
    · rename_i h
      have hk : k < 2 ^ 32 := by rcases hk with ⟨-, h⟩ | ⟨-, h⟩ | ⟨h, -⟩ <;> first | omega | cases h
      have e := toNat_encW (k := k - 1) (by omega) (by omega)
      refine (CondIs.plain hc fun s => ?_).mono (by simp)
      simp only [compare, Rel.holds, decide_eq_decide, BitVec.le_def]
      omega
  | gt =>
    simp only [cmpConst]
    split
    · rename_i h
      exact hnever _ fun s => by have := hlt s; simp only [Rel.holds, decide_eq_false_iff_not]; omega
    · rename_i h
      have hk : 0 ≤ k := by rcases hk with ⟨h, -⟩ | ⟨h, -⟩ | ⟨-, h⟩ <;> first | omega | cases h
      have e := toNat_encW (k := k + 1) (by omega) (by omega)
      refine (CondIs.plain hc fun s => ?_).mono (by simp)
      simp only [compare, Rel.holds, decide_eq_decide, BitVec.le_def]
      omega

/-- The claim for all integers is false: `x <= -1` holds for every `x`, `x >= -1` and `x > -5` only for large `x`. -/
theorem C23_counterexample (x t : Nat) (s : Mem) :
    holdsAll s [(cmpConst x t .le (-1)).2] = true ∧ Rel.holds .le (s (x + 348)).toNat (-1) = false ∧
    (s (x + 348) = 5 → holdsAll s [(cmpConst x t .gt (-5)).2] = false ∧ Rel.holds .gt (s (x + 348)).toNat (-5) = true ∧
      holdsAll s [(cmpConst x t .ge (-1)).2] = false ∧ Rel.holds .ge (s (x + 348)).toNat (-1) = true) := by
  have := (s (x + 348)).isLt
  refine ⟨?_, ?_, ?_⟩
  · simp only [cmpConst, holdsAll_cons, holdsAll_nil, Bool.and_true, cMem_holds, compare, decide_eq_true_eq, BitVec.le_def,
      show (encW (-1)).toNat = 2 ^ 32 - 1 by decide]
    omega
  · simp only [Rel.holds, decide_eq_false_iff_not]; omega
  · intro h
    simp only [cmpConst, show ¬ (0xFFFFFFFF : Int) ≤ -5 by decide, if_false, holdsAll_cons, holdsAll_nil, Bool.and_true, cMem_holds, h]
    decide

/-- For EUDLightVariable. -/
theorem C23_light {a : Nat} (ha : L.cell a) (r : Rel) (k : Int) (h0 : 0 ≤ k) (h1 : k < 2 ^ 32) (hl : r = .lt → 0 < k) (hg : r = .gt → k < 0xFFFFFFFF) (c : PC)
    (hc : cmpLight a r k = some c) : CondIs L .skip [c] (fun s => r.holds (s a).toNat k) [] := by
  have hlt : ∀ s : Mem, (s a).toNat < 2 ^ 32 := fun s => (s a).isLt
  have e := toNat_encW h0 h1
  cases r with
  | eq => cases hc; exact CondIs.plain ha fun s => by simp only [compare, Rel.holds, decide_eq_decide]; exact eq_encW h0 h1 _
  | le => cases hc; exact CondIs.plain ha fun s => by simp only [compare, Rel.holds, decide_eq_decide, BitVec.le_def]; omega
  | ge => cases hc; exact CondIs.plain ha fun s => by simp only [compare, Rel.holds, decide_eq_decide, BitVec.le_def]; omega
  | lt =>
    cases hc
    have := hl rfl
    have e := toNat_encW (k := k - 1) (by omega) (by omega)
    exact CondIs.plain ha fun s => by simp only [compare, Rel.holds, decide_eq_decide, BitVec.le_def]; omega
  | gt =>
    cases hc
    have := hg rfl
    have e := toNat_encW (k := k + 1) (by omega) (by omega)
    exact CondIs.plain ha fun s => by simp only [compare, Rel.holds, decide_eq_decide, BitVec.le_def]; omega
  | ne =>
    simp only [cmpLight] at hc
    split at hc
    · rename_i h
      cases hc
      rw [h] at e; simp at e
      refine CondIs.plain ha fun s => ?_
      simp only [compare, Rel.holds, decide_eq_decide, BitVec.le_def]
      show 1 ≤ _ ↔ _
      omega
    · split at hc
      · rename_i h
        cases hc
        rw [h] at e; simp at e
        refine CondIs.plain ha fun s => ?_
        simp only [compare, Rel.holds, decide_eq_decide, BitVec.le_def]
        have := hlt s
        show _ ≤ 0xFFFFFFFE ↔ _
        omega
      · cases hc

/-- Light variables do not have the guards of EUDVariable: `v < 0` and `v > 0xFFFFFFFF` are always true. -/
theorem C23_counterexample_light (a : Nat) (s : Mem) : ∃ c d, cmpLight a .lt 0 = some c ∧ holdsAll s [c] = true ∧ cmpLight a .gt 0xFFFFFFFF = some d ∧
    holdsAll s [d] = true ∧ Rel.holds .lt (s a).toNat 0 = false ∧ Rel.holds .gt (s a).toNat 0xFFFFFFFF = false := by
  have := (s a).isLt
  refine ⟨_, _, rfl, ?_, rfl, ?_, ?_, ?_⟩
  · simp only [holdsAll_cons, holdsAll_nil, Bool.and_true, cMem_holds, compare, decide_eq_true_eq, BitVec.le_def, show (encW (0 - 1)).toNat = 2 ^ 32 - 1 by decide]
    omega
  · simp only [holdsAll_cons, holdsAll_nil, Bool.and_true, cMem_holds, compare, decide_eq_true_eq, BitVec.le_def, show (encW (0xFFFFFFFF + 1)).toNat = 0 by decide]
    omega
  · simp only [Rel.holds, decide_eq_false_iff_not]; omega
  · simp only [Rel.holds, decide_eq_false_iff_not]; omega

theorem sub_pos (a b : W) : 1 ≤ (arith .sub a b).toNat ↔ b.toNat < a.toNat := by
  simp only [arith]
  split
  · rename_i h
    rw [BitVec.lt_def] at h
    show 1 ≤ 0 ↔ _
    omega
  · rename_i h
    rw [BitVec.lt_def] at h
    rw [BitVec.toNat_sub]
    have := a.isLt
    have := b.isLt
    omega

/-- **C23 (variables).** `c + 8` (for `==`, `<=`, `>=`) resp. `c` (for `<`, `>`) is a dword of the condition used for the comparison. -/
theorem C23_var (hw : L.Wf) {x y t c : Nat} (hx : x ∈ L.P.vars) (hy : y ∈ L.P.vars) (ht : t ∈ L.P.vars) (hx' : t ≠ x) (hy' : t ≠ y)
    (r : Rel)
    (c0 : r = .lt ∨ r = .gt → L.cell c) (c8 : r = .eq ∨ r = .le ∨ r = .ge → L.cell (c + 8)) (n1 : c ≠ x + 348) (n2 : c ≠ y + 348) (n3 : c + 8 ≠ x + 348) :
    CondIs L (cmpVar x y t c r).1 [(cmpVar x y t c r).2] (fun s => r.holds (s (x + 348)).toNat (s (y + 348)).toNat) [c, c + 8, t + 348] := by
  have hc := cell_val hw hx
  have hct := cell_val hw ht
  intro s
  cases r with
  | ne =>
    refine (C53_sub hw ht hx hy hx' hy' s).mono ?_
    rintro s' ⟨h1, h2⟩
    refine ⟨by simp; exact cMem_ok hct _ _ _, ?_, h2.mono (by simp)⟩
    simp only [cmpVar, holdsAll_cons, holdsAll_nil, Bool.and_true, cMem_holds, compare, Rel.holds, decide_eq_decide, h1, BitVec.le_def, BitVec.toNat_sub]
    have := (s (x + 348)).isLt
    have := (s (y + 348)).isLt
    show 1 ≤ _ ↔ _
    omega
  | eq =>
    have c8 := c8 (by simp)
    refine Does.asg (by simpa using c8) (by simpa using hy) ⟨by simp; exact cMemV_ok hc _ _ _, ?_, Only.set (Only.refl _ _) (by simp) _⟩
    simp only [cmpVar, holdsAll_cons, holdsAll_nil, Bool.and_true, cMemV_holds, compare, Rel.holds, decide_eq_decide, runAsg_cons, runAsg_nil, set_eq, arith, Src.valM, set_ne n3.symm]
    constructor
    · intro h; rw [h]
    · intro h; apply BitVec.eq_of_toNat_eq; omega
  | le =>
    have c8 := c8 (by simp)
    refine Does.asg (by simpa using c8) (by simpa using hy) ⟨by simp; exact cMemV_ok hc _ _ _, ?_, Only.set (Only.refl _ _) (by simp) _⟩
    simp only [cmpVar, holdsAll_cons, holdsAll_nil, Bool.and_true, cMemV_holds, compare, Rel.holds, decide_eq_decide, runAsg_cons, runAsg_nil, set_eq, arith, Src.valM, set_ne n3.symm,
      BitVec.le_def]
    omega
  | ge =>
    have c8 := c8 (by simp)
    refine Does.asg (by simpa using c8) (by simpa using hy) ⟨by simp; exact cMemV_ok hc _ _ _, ?_, Only.set (Only.refl _ _) (by simp) _⟩
    simp only [cmpVar, holdsAll_cons, holdsAll_nil, Bool.and_true, cMemV_holds, compare, Rel.holds, decide_eq_decide, runAsg_cons, runAsg_nil, set_eq, arith, Src.valM, set_ne n3.symm,
      BitVec.le_def]
    omega
  | lt =>
    have c0 := c0 (by simp)
    refine Does.asg (by simpa using c0) (by simp; exact ⟨hy, hx⟩) ⟨by simp; exact cMem_ok c0 _ _ _, ?_, Only.set (Only.set (Only.refl _ _) (by simp) _) (by simp) _⟩
    simp only [cmpVar, holdsAll_cons, holdsAll_nil, Bool.and_true, cMem_holds, compare, Rel.holds, decide_eq_decide, runAsg_cons, runAsg_nil, set_eq, Src.valM,
      set_ne n1.symm, BitVec.le_def, show ∀ a b : W, arith .set a b = b from fun _ _ => rfl]
    have := sub_pos (s (y + 348)) (s (x + 348))
    show 1 ≤ _ ↔ _
    omega
  | gt =>
    have c0 := c0 (by simp)
    refine Does.asg (by simpa using c0) (by simp; exact ⟨hx, hy⟩) ⟨by simp; exact cMem_ok c0 _ _ _, ?_, Only.set (Only.set (Only.refl _ _) (by simp) _) (by simp) _⟩
    simp only [cmpVar, holdsAll_cons, holdsAll_nil, Bool.and_true, cMem_holds, compare, Rel.holds, decide_eq_decide, runAsg_cons, runAsg_nil, set_eq, Src.valM,
      set_ne n2.symm, BitVec.le_def, show ∀ a b : W, arith .set a b = b from fun _ _ => rfl]
    have := sub_pos (s (x + 348)) (s (y + 348))
    show 1 ≤ _ ↔ _
    omega

end Eud.SC
