import Verif.Machine.EmitP
import Verif.Lib.MulCall
import Verif.Ex.Div
/-
The multiplication function as it lies in memory, for examples that call it.
-/

namespace Eud.SC

namespace ExMul
open ExC21d (ent bl some_eq)

/-- parameters and local of the multiplication -/
def a : Nat := exVar 0
def b : Nat := exVar 1
def ret : Nat := exVar 2
/-- result variable of the multiplication -/
def r0 : Nat := trigAt 130
def fend : Nat := trigAt 131
def nptr : Nat := fend + 348

def t0 : Nat := trigAt 0
def p1 (i : Nat) : Nat := trigAt (1 + 4 * i)
def p3 (i : Nat) : Nat := trigAt (2 + 4 * i)
def p2 (i : Nat) : Nat := trigAt (3 + 4 * i)
def p4 (i : Nat) : Nat := trigAt (4 + 4 * i)

def fin : Option (Nat × List Blk) := emitAsg fend 0 [⟨r0 + 348, .set, .var ret⟩]

def B0 : SBlk := ⟨t0, ⟨[], [sMem (ret + 348) .set 0, sModi b .add]⟩, some (p1 0), false⟩
def B1 (i : Nat) : SBlk := ⟨p1 i, ⟨[sChk (a + 348) .atLeast 1 (pow2 i)], [sNext (p1 i) (p3 i)]⟩, none, false⟩
def B3 (i : Nat) : SBlk :=
  ⟨p3 i, ⟨[], [sDest b (ret + 348), sNext (p1 i) (p2 i), sNext b (p2 i)]⟩, some b, false⟩
def B2 (i : Nat) : SBlk := ⟨p2 i, ⟨[sChk (a + 348) .exactly 0 (remBits i)],
      [sNext (p2 i) (p2 31), sMem (p2 31 + 344) .set (epd (p2 i + 4)),
        sMem (p2 31 + 348) .set (BitVec.ofNat 32 (p4 i))]⟩, none, false⟩
def B4 (i : Nat) : SBlk := ⟨p4 i, ⟨[], [sDest b (b + 348), sNext b (p1 (i + 1))]⟩, some b, false⟩
def BE (fin : Nat) : SBlk := ⟨p2 31, ⟨[], [⟨none, .set, none, some 0xFFFFFFFF⟩]⟩, some fin, false⟩

def blks : List SBlk := B0 :: (List.range 31).flatMap (fun i => [B1 i, B3 i, B2 i, B4 i]) ++ [B1 31, B3 31, BE (ent fin)] ++
  [fretBlk r0, ⟨fend, ⟨[], retActs [r0]⟩, some r0, false⟩]
def seqs : List Blk := bl fin
def rest : List (Nat × Nat) := (List.range 31).flatMap (fun i => [(p1 i, p2 i), (p2 i, p4 i)]) ++ [(p1 31, p2 31)]

/-- The layout contains the multiplication. -/
structure In (L : Layout) : Prop where
  blks : ∀ q ∈ blks, q ∈ L.P.blks
  seqs : ∀ q ∈ seqs, q ∈ L.P.seqs
  rest : ∀ q ∈ rest, q ∈ L.rest
  vars : ∀ i < 3, exVar i ∈ L.P.vars

variable {L : Layout} (hI : In L)
include hI

theorem code {vs : List W} (hl : L.Laid exBuf vs) : MulCode L a b ret t0 (ent fin) p1 p2 p3 p4 := by
  have hm : ∀ i < 31, ∀ x ∈ [B1 i, B3 i, B2 i, B4 i], x ∈ L.P.blks := by
    intro i hi x hx
    refine hI.blks _ ?_
    simp only [blks, List.cons_append, List.mem_cons, List.mem_append, List.mem_flatMap, List.mem_range]
    exact Or.inr (Or.inl (Or.inl ⟨i, hi, by simpa using hx⟩))
  have hr : ∀ i < 31, ∀ x ∈ [(p1 i, p2 i), (p2 i, p4 i)], x ∈ L.rest := by
    intro i hi x hx
    refine hI.rest _ ?_
    simp only [rest, List.mem_append, List.mem_flatMap, List.mem_range]
    exact Or.inl ⟨i, hi, hx⟩
  have hBE : BE (ent fin) ∈ L.P.blks := hI.blks _ (by simp [blks])
  have lt32 : ∀ i, i < 32 → i < 31 ∨ i = 31 := by omega
  refine ⟨hI.blks _ (by simp [blks, B0]), ?_, ?_, ?_, fun i hi => hm i hi (B2 i) (by simp), fun i hi => hr i hi _ (by simp),
    fun i hi => hm i hi (B4 i) (by simp), hBE, ?_, ?_, ?_, ?_, by decide +kernel, hI.vars 0 (by omega), hI.vars 1 (by omega), hI.vars 2 (by omega),
    by decide +kernel, by decide +kernel, by decide +kernel, ⟨?_, ?_⟩, by decide +kernel⟩
  · intro i hi
    rcases lt32 i hi with h | rfl
    · exact hm i h (B1 i) (by simp)
    · exact hI.blks _ (by simp [blks, B1])
  · intro i hi
    rcases lt32 i hi with h | rfl
    · exact hr i h _ (by simp)
    · exact hI.rest _ (by simp [rest])
  · intro i hi
    rcases lt32 i hi with h | rfl
    · exact hm i h (B3 i) (by simp)
    · exact hI.blks _ (by simp [blks, B3])
  · intro i hi; simp only [p1, trigAt]; omega
  · intro i hi; simp only [p3, trigAt]; omega
  · intro i hi; simp only [p2, trigAt]; omega
  · decide +kernel
  · exact (hl.hole hBE (o := 344) (by decide) (by decide +kernel) (by omega)).1
  · exact (hl.hole hBE (o := 348) (by decide) (by decide +kernel) (by omega)).1

omit hI in
def body (L : Layout) : Stmt := eudMul L a b ret r0 p2 p4

theorem fcode {vs : List W} (hl : L.Laid exBuf vs) (h1 : L.cell nptr) (h2 : L.cell (r0 + 4)) : FuncCode L t0 fend nptr [r0] (body L) := by
  refine ⟨⟨0, 0, .seq ((code hI hl).code hl.wf _ _ _) (.seq (emitAsg_code (x := fend) (some_eq (by decide +kernel)) hI.seqs _ _ _) .ret)⟩, ⟨by simp, ?_, h1, ?_, by decide⟩⟩
  · intro v vs h
    simp only [List.cons.injEq] at h
    obtain ⟨rfl, rfl⟩ := h
    exact ⟨by decide, hI.blks _ (by simp [blks])⟩
  · intro v hv
    simp only [List.mem_cons, List.not_mem_nil, or_false] at hv
    subst hv
    exact ⟨hI.blks _ (by simp [blks]), h2, by decide⟩

omit hI in
def scr : List Nat := mulOnly b ret r0 (p2 31)

omit hI in
/-- The dwords of `reset_nptr` when the map starts. -/
def holes : List (Nat × W) := [(p2 31 + 344, epd (p1 31 + 4)), (p2 31 + 348, BitVec.ofNat 32 (p2 31))]

theorem rest0 {vs : List W} (hl : L.Laid exBuf vs) : MulRest L (p2 31) (L.view (L.mem exBuf vs holes)) := by
  have hBE : BE (ent fin) ∈ L.P.blks := hI.blks _ (by simp [blks])
  have hh1 := (hl.hole hBE (o := 344) (by decide) (by decide +kernel) (by omega) holes)
  have hh2 := (hl.hole hBE (o := 348) (by decide) (by decide +kernel) (by omega) holes)
  refine ⟨(p1 31, p2 31), hI.rest _ (by simp [rest]), ?_, ?_, by decide +kernel⟩
  · rw [Layout.view_at (show ¬ L.priv (p2 31 + 344) from hh1.1.2)]
    exact hh1.2.trans (by decide +kernel)
  · rw [Layout.view_at (show ¬ L.priv (p2 31 + 348) from hh2.1.2)]
    exact hh2.2.trans (by decide +kernel)

/-- An argument is a variable, but not one of the function, or a constant. -/
def Arg (L : Layout) (s : Src) : Prop := ∀ v, s = .var v → v ∈ L.P.vars ∧ v + 348 ∉ [a + 348, b + 348, nptr, r0 + 344]

omit hI in
theorem arg_const (L : Layout) (k : W) : Arg L (.const k) := fun v h => by cases h

omit hI in
theorem arg_var {v : Nat} (h1 : v ∈ L.P.vars) (h2 : v + 348 ∉ [a + 348, b + 348, nptr, r0 + 344]) : Arg L (.var v) := fun w h => by cases h; exact ⟨h1, h2⟩

omit hI in
/-- A call of the multiplication. -/
def site (L : Layout) (back q : Nat) (sa sb : Src) : Site := ⟨t0, fend, nptr, back, body L, [(r0, q)], [(a + 348, sa), (b + 348, sb)]⟩

omit hI in
/-- What a call may change. -/
def cscr (q : Nat) : List Nat := callOnly nptr [(r0, q)] [(a + 348, .const 0), (b + 348, .const 0)] scr

/-- Calls multiply. -/
theorem call {vs : List W} (hl : L.Laid exBuf vs) (hc : ∀ x ∈ [nptr, r0 + 4, r0 + 344, r0 + 348], L.cell x) {q back : Nat} {sa sb : Src} (hb : back < 2 ^ 32)
    (hq : L.cell q ∧ EpdOK q) (hq2 : q ∉ [nptr, r0 + 4, r0 + 344, r0 + 348, p2 31 + 344, p2 31 + 348]) (ha : Arg L sa) (hb' : Arg L sb) :
    CompI L (MulRest L (p2 31)) ((site L back q sa sb).stmt L) q (fun s => sa.valM s * sb.valM s) (cscr q) := by
  simp only [List.mem_cons, List.not_mem_nil, or_false, not_or] at hq2
  have hl1 : ¬ q ∈ [nptr] := by simp [hq2]
  have hk : CallOk L nptr [(r0, q)] [(a + 348, sa), (b + 348, sb)] scr := by
    refine ⟨hc _ (by simp), ?_, ?_, by show [a + 348, b + 348].Nodup; decide, by simp, by simp, ?_, ?_, ?_, by simp; decide, ?_, by decide +kernel, by simp; decide +kernel, by simp; decide⟩ <;>
      simp only [List.forall_mem_cons, List.not_mem_nil, false_imp_iff, implies_true, and_true]
    · exact ⟨hc _ (by simp), hq⟩
    · exact ⟨⟨cell_val hl.wf (hI.vars 0 (by omega)), fun v h => (ha v h).1⟩, cell_val hl.wf (hI.vars 1 (by omega)), fun v h => (hb' v h).1⟩
    · refine ⟨⟨fun v h => ?_, fun v h => ?_⟩, fun v h => ?_, fun v h => ?_⟩
      · have := (ha v h).2; simp only [List.mem_cons, List.not_mem_nil, or_false, not_or] at this; exact this.1
      · have := (hb' v h).2; simp only [List.mem_cons, List.not_mem_nil, or_false, not_or] at this; exact this.1
      · have := (ha v h).2; simp only [List.mem_cons, List.not_mem_nil, or_false, not_or] at this; exact this.2.1
      · have := (hb' v h).2; simp only [List.mem_cons, List.not_mem_nil, or_false, not_or] at this; exact this.2.1
    · refine ⟨fun v h => ?_, fun v h => ?_⟩
      · have := (ha v h).2; simp only [List.mem_cons, List.not_mem_nil, or_false, not_or] at this; simp [this]
      · have := (hb' v h).2; simp only [List.mem_cons, List.not_mem_nil, or_false, not_or] at this; simp [this]
    · decide
    · exact ⟨hq2.2.1, hq2.2.2.1, hq2.2.2.2.1, by decide, by decide⟩
  refine C20_call hl.wf (code hI hl) (hc _ (by simp)) (by decide) rfl hk (fcode hI hl (hc _ (by simp)) (hc _ (by simp))) hb ?_
  simp only [List.mem_cons, List.not_mem_nil, or_false, not_or]
  rintro x (rfl | rfl)
  · exact ⟨by show _ ≠ nptr; decide +kernel, by decide +kernel, by decide +kernel, Ne.symm hq2.2.2.2.2.1⟩
  · exact ⟨by show _ ≠ nptr; decide +kernel, by decide +kernel, by decide +kernel, Ne.symm hq2.2.2.2.2.2⟩

theorem siteF {vs : List W} (hl : L.Laid exBuf vs) (hc : ∀ x ∈ [nptr, r0 + 4, r0 + 344, r0 + 348], L.cell x) (back q : Nat) (sa sb : Src) :
    let S := site L back q sa sb
    FuncCode L S.fstart S.fend S.nptr (S.rs.map Prod.fst) S.body ∧ ∀ r ∈ S.rs, r.1 + 4 ≠ S.nptr :=
  ⟨fcode hI hl (hc _ (by simp)) (hc _ (by simp)), by simp [site]; decide⟩

end ExMul

end Eud.SC
