import Verif.Ex.Kit
import Verif.Lib.LoopUnit2
/-
Example for C60: the units that are there are counted and their pointers added up, with `EUDLoopUnit2`, in memory.
-/

namespace Eud.SC
namespace ExLoopUnit2

def cnt : Nat := exVar 2
def sum : Nat := exVar 3
/-- Without the plugin. -/
def F : Un2 := ⟨exVar 0, exVar 1, trigAt 3 + 8, trigAt 2 + 328 + 64, trigAt 2 + 328 + 128, false⟩
/-- `cnt += 1; sum += ptr; ptr += 1` -/
def body : Stmt := .asg [⟨cnt + 348, .add, .const 1⟩, ⟨sum + 348, .add, .var F.ptr⟩, ⟨F.ptr + 348, .add, .const 1⟩]
def noS : Nat → (b k x n m : Nat) → Option Emitted := fun _ _ _ _ _ _ => none
def M : Emitted := emitD retAt noS (.base (F.loop body)) 0 0 haltAt 0 0
def L : Layout := ⟨⟨M.blks, M.seqs, (List.range 4).map exVar⟩, M.rest, []⟩

/-- The units that are there. -/
def there : List Nat := [0, 7, 1699]
def vs (x y : W) : List W := [1, 2, x, y]
def mem (x y : W) : Mem := L.mem exBuf (vs x y) (there.map fun i => (Un2.unitAt i + 12, 5))

theorem laid (x y : W) : L.Laid exBuf (vs x y) := Layout.laidB_spec (show L.laidB exBuf 4 = true by decide +kernel)
theorem wf : L.Wf := (laid 0 0).wf
theorem ok (x y : W) : L.Ok (mem x y) := ((laid x y).ok _).1

theorem code : Code L retAt 0 0 (F.loop body) M.e haltAt :=
  emitD_code (S := noS) (f := fun _ => .skip) (es := .base (F.loop body)) (fun _ _ _ _ _ _ _ h => by cases h) (by decide +kernel) ⟨fun _ h => h, fun _ h => h, fun _ h => h⟩

theorem units : ∀ i < 1700, L.Free exBuf 4 (Un2.unitAt i + 12) ∧ Un2.unitAt i + 12 ∉ F.scr ∧ Un2.unitAt i + 12 ≠ cnt + 348 ∧ Un2.unitAt i + 12 ≠ sum + 348 := by decide +kernel

theorem cell {x : Nat} (h : L.cellB x = true) : L.cell x := (laid 0 0).cellB h
theorem unitCell {i : Nat} (h : i < 1700) : L.cell (Un2.unitAt i + 12) := (laid 0 0).freeCell (units i h).1

theorem fok : F.Ok L where
  c := by
    have h : ∀ x ∈ F.scr, L.cellB x = true := by decide +kernel
    exact fun x hx => cell (h x hx)
  nd := by decide +kernel
  rd := fun i hi => ⟨(unitCell hi).2, (units i hi).2.1⟩

/-- The pointers to the units that are there before the unit `i`. -/
def ptrs (i : Nat) : List W := ((List.range i).filter fun j => there.contains j).map fun j => BitVec.ofNat 32 (Un2.unitAt j)

theorem ptrs_in {i : Nat} (h : there.contains i = true) : ptrs (i + 1) = ptrs i ++ [BitVec.ofNat 32 (Un2.unitAt i)] := by
  simp only [ptrs, List.range_succ, List.filter_append, List.map_append, List.filter_cons, h, if_true, List.filter_nil, List.map_cons, List.map_nil]

theorem ptrs_out {i : Nat} (h : there.contains i = false) : ptrs (i + 1) = ptrs i := by
  simp only [ptrs, List.range_succ, List.filter_append, List.filter_cons, h, Bool.false_eq_true, if_false, List.filter_nil, List.append_nil]

theorem start (x y : W) {i : Nat} (hi : i < 1700) : F.Alive (L.view (mem x y)) i ↔ there.contains i = true := by
  unfold Un2.Alive
  have hf : ∀ i < 1700, (match (there.map fun i => (Un2.unitAt i + 12, (5 : W))).find? (fun r => r.1 == Un2.unitAt i + 12) with | some r => r.2 | none => 0) &&& F.mask ≠ 0 ↔ there.contains i = true := by decide +kernel
  rw [show F.off = 12 from rfl, Layout.view_at (unitCell hi).2, show mem x y (Un2.unitAt i + 12) = _ from (laid x y).free (units i hi).1 (by decide) _]
  exact hf i hi

/-- What is known before the unit `i`. -/
def Inv (x y : W) (s0 : Mem) (i : Nat) (s : Mem) : Prop :=
  s (cnt + 348) = x + BitVec.ofNat 32 (ptrs i).length ∧ s (sum + 348) = y + (ptrs i).foldl (· + ·) 0 ∧ ∀ j < 1700, s (Un2.unitAt j + 12) = s0 (Un2.unitAt j + 12)

theorem loop {x y : W} {s : Mem} (h1 : s (cnt + 348) = x) (h2 : s (sum + 348) = y) (ha : ∀ i < 1700, F.Alive s i ↔ there.contains i = true) : Wp L (F.loop body) s fun o s' => o = .nrm ∧ Inv x y s 1700 s' := by
  refine C60_unit2 fok (I := Inv x y s) ?_ ?_ ?_ (fun _ h => ⟨rfl, h⟩) ⟨by rw [h1]; exact (BitVec.add_zero x).symm, by rw [h2]; exact (BitVec.add_zero y).symm, fun _ _ => rfl⟩
  · rintro i s1 s2 ho ⟨a1, a2, a3⟩
    exact ⟨(ho _ (by decide +kernel)).trans a1, (ho _ (by decide +kernel)).trans a2, fun j hj => (ho _ (units j hj).2.1).trans (a3 j hj)⟩
  · rintro i s1 hi ⟨a1, a2, a3⟩ al hp he
    have hin : there.contains i = true := (ha i hi).1 (by unfold Un2.Alive at al ⊢; rwa [← show s1 (Un2.unitAt i + F.off) = s (Un2.unitAt i + F.off) from a3 i hi])
    refine Wp.mono (Does.wp (Q := fun s2 => s2 = ((s1.set (cnt + 348) (s1 (cnt + 348) + 1)).set (sum + 348) (s1 (sum + 348) + s1 (F.ptr + 348))).set (F.ptr + 348) (s1 (F.ptr + 348) + 1)) (Does.asg ?_ ?_ ?_)) ?_
    · have h : ∀ a ∈ [cnt + 348, sum + 348, F.ptr + 348], L.cellB a = true := by decide +kernel
      simp only [List.mem_cons, List.not_mem_nil, or_false, forall_eq_or_imp, forall_eq] at h ⊢
      exact ⟨cell h.1, cell h.2.1, cell h.2.2⟩
    · simp only [List.mem_cons, List.not_mem_nil, or_false, forall_eq_or_imp, forall_eq]
      exact ⟨fun v h => (by cases h), fun v h => by cases h; decide, fun v h => by cases h⟩
    · have n1 : (sum + 348 : Nat) ≠ cnt + 348 := by decide
      have n2 : F.ptr + 348 ≠ cnt + 348 := by decide
      have n3 : F.ptr + 348 ≠ sum + 348 := by decide
      simp only [runAsg, Src.valM, arith, set_ne n1, set_ne n2, set_ne n3]
    · rintro o s2 ⟨rfl, rfl⟩
      have n1 : (cnt + 348 : Nat) ≠ sum + 348 := by decide
      have n2 : cnt + 348 ≠ F.ptr + 348 := by decide
      have n3 : sum + 348 ≠ F.ptr + 348 := by decide
      refine ⟨⟨?_, ?_, fun j hj => ?_⟩, fun z hz => ?_⟩
      · rw [set_ne n2, set_ne n1, set_eq, a1, ptrs_in hin, List.length_append, List.length_singleton, BitVec.ofNat_add, BitVec.add_assoc]
        rfl
      · rw [set_ne n3, set_eq, a2, hp, ptrs_in hin, List.foldl_append, List.foldl_cons, List.foldl_nil, BitVec.add_assoc]
      · rw [set_ne fun e => (units j hj).2.1 (by rw [e]; simp [Un2.scr]), set_ne (units j hj).2.2.2, set_ne (units j hj).2.2.1, a3 j hj]
      · have h : ∀ z ∈ F.own, z ≠ F.ptr + 348 ∧ z ≠ sum + 348 ∧ z ≠ cnt + 348 := by decide +kernel
        rw [set_ne (h z hz).1, set_ne (h z hz).2.1, set_ne (h z hz).2.2]
  · rintro i s1 hi ⟨a1, a2, a3⟩ al
    have hout : there.contains i = false := by
      rw [Bool.eq_false_iff]
      refine fun h => al ?_
      have := (ha i hi).2 h
      unfold Un2.Alive at this ⊢
      rwa [show s1 (Un2.unitAt i + F.off) = _ from a3 i hi]
    exact ⟨by rw [a1, ptrs_out hout], by rw [a2, ptrs_out hout], a3⟩

/-- The machine. -/
theorem run (x y : W) : ∃ m', Reaches ⟨mem x y, M.e⟩ ⟨m', haltAt⟩ ∧ m' (cnt + 348) = x + 3 ∧ m' (sum + 348) = y + (0x59CCA8 + (0x59CCA8 + 336 * 7) + (0x59CCA8 + 336 * 1699)) := by
  have hc : ∀ z ∈ [cnt + 348, sum + 348], L.cellB z = true := by decide +kernel
  have hv0 : ∀ z ∈ [cnt + 348, sum + 348], ∀ m, L.view m z = m z := fun z hz m => Layout.view_at (cell (hc z hz)).2
  obtain ⟨o, s1, x1, rfl, e1, e2, -⟩ := loop (x := x) (y := y) (s := L.view (mem x y)) (by rw [hv0 _ (by simp)]; exact ((laid x y).ok _).2 2 (by simp [vs])) (by rw [hv0 _ (by simp)]; exact ((laid x y).ok _).2 3 (by simp [vs])) (fun i hi => start x y hi)
  obtain ⟨m', rr, -, hv⟩ := C25_structured wf x1 code _ (ok x y) rfl
  refine ⟨m', rr, ?_, ?_⟩
  · rw [← hv0 _ (by simp) m', hv, e1]
    exact congrArg (x + ·) (by decide +kernel)
  · rw [← hv0 _ (by simp) m', hv, e2]
    exact congrArg (y + ·) (by decide +kernel)

end ExLoopUnit2
end Eud.SC
