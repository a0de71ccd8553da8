import Verif.Machine.Emit
import Verif.Lib.Shift
import Verif.Ex.Div
/-
The division function as it lies in memory, for examples that call it.
-/

namespace Eud.SC

namespace ExDiv
open ExC21d (ent bl some_eq cs t)

/-- parameters and locals of the division -/
def a : Nat := exVar 0
def b : Nat := exVar 1
def ret : Nat := exVar 2
def x : Nat := exVar 3
/-- result variables of the division -/
def r0 : Nat := trigAt 200
def r1 : Nat := trigAt 201
def fend : Nat := trigAt 202
def nptr : Nat := fend + 328 + 32 + 20

def C (fin i : Nat) : SBlk := ⟨t i, ⟨[.check (some (.mem (a + 348))) .atLeast none (some 0xFFFFFFFF)],
  [⟨some (.mem (a + 348)), .sub, none, some 0xFFFFFFFF⟩, sMem (ret + 348) .add (pow2 i)]⟩, some (if i = 0 then fin else t (i - 1)), false⟩
def fill (i : Nat) : Option (Nat × List Blk) := emitAsg (trigAt (40 + 2 * i)) (4 * i) [⟨t i + 16, .set, .var x⟩, ⟨t i + 348, .set, .var x⟩]
def fin : Option (Nat × List Blk) := emitAsg fend 200 [⟨r0 + 348, .set, .var ret⟩, ⟨r1 + 348, .set, .var a⟩]
def ente (i : Nat) : Nat := if i = 32 then t 31 else ent (fill i)
def dbl (i : Nat) : Option (Nat × List Blk) := emitAsg (ente (i + 1)) (4 * i + 2) [⟨x + 348, .add, .var x⟩]
def start : Option (Nat × List Blk) := emitAsg (ente 0) 300 [⟨ret + 348, .set, .const 0⟩, ⟨x + 348, .set, .var b⟩]

def blks : List SBlk := (List.range 32).map (C (ent fin)) ++ (List.range 32).flatMap (fun i => emitBr (40 + 2 * i) ExC21d.cs (t i) (ent (dbl i))) ++
    [fretBlk r0, fretBlk r1, ⟨fend, ⟨[], retActs [r0, r1]⟩, some r0, false⟩]
def seqs : List Blk := (List.range 32).flatMap (fun i => bl (fill i) ++ bl (dbl i)) ++ bl fin ++ bl start
def rest : List (Nat × Nat) := (List.range 32).map (fun i => (trigAt (40 + 2 * i), ent (dbl i)))

/-- The layout contains the division. -/
structure In (L : Layout) : Prop where
  blks : ∀ q ∈ blks, q ∈ L.P.blks
  seqs : ∀ q ∈ seqs, q ∈ L.P.seqs
  rest : ∀ q ∈ rest, q ∈ L.rest
  vars : ∀ i < 4, exVar i ∈ L.P.vars

variable {L : Layout} (hI : In L)
include hI

theorem chain (r b k : Nat) : ∀ n ≤ 32, Code L r b k (divChain (a + 348) (ret + 348) t n) (if n = 0 then ent fin else t (n - 1)) (ent fin)
  | 0, _ => .skip
  | n + 1, h => by
    have ih := chain r b k n (by omega)
    unfold divChain at ih ⊢
    rw [List.range_succ, List.reverse_append, List.reverse_singleton, List.singleton_append, List.map_cons]
    refine .seq (m := if n = 0 then ent fin else t (n - 1)) ?_ ih
    refine .trig ⟨rfl, trivial⟩ ⟨rfl, aMem_static _ _ _, trivial⟩ ?_
    refine hI.blks _ ?_
    simp only [blks, List.mem_append, List.mem_map, List.mem_range]
    exact Or.inl (Or.inl ⟨n, by omega, rfl⟩)

theorem fillCode (r b k : Nat) : ∀ n i, n + i = 32 → Code L r b k (divFill (a + 348) (ret + 348) x t n i) (ente i) (ent fin)
  | 0, i, h => by
    obtain rfl : i = 32 := by omega
    exact chain hI r b k 32 (by omega)
  | n + 1, i, h => by
    have ih := fillCode r b k n (i + 1) (by omega)
    have hi : i < 32 := by omega
    have hs : ∀ i < 32, (fill i).isSome = true ∧ (dbl i).isSome = true ∧ brOk (40 + 2 * i) cs = true := by decide +kernel
    obtain ⟨h1, h2, h3⟩ := hs i hi
    have he : ente i = ent (fill i) := by unfold ente; rw [if_neg (by omega)]
    rw [he]
    refine .seq (emitAsg_code (some_eq h1) ?_ _ _ _) (.ite .skip (emitBr_at (f := ent (dbl i)) (t := t i) h3 ?_ ?_) (chain hI r b k (i + 1) (by omega))
      (.seq (emitAsg_code (some_eq h2) ?_ _ _ _) ih))
    · intro q hq
      refine hI.seqs _ ?_
      simp only [seqs, List.mem_append, List.mem_flatMap, List.mem_range]
      exact Or.inl (Or.inl ⟨i, hi, Or.inl hq⟩)
    · intro q hq
      refine hI.blks _ ?_
      simp only [blks, List.mem_append, List.mem_flatMap, List.mem_range]
      exact Or.inl (Or.inr ⟨i, hi, hq⟩)
    · refine hI.rest _ ?_
      simp only [rest, List.mem_map, List.mem_range]
      exact ⟨i, hi, rfl⟩
    · intro q hq
      refine hI.seqs _ ?_
      simp only [seqs, List.mem_append, List.mem_flatMap, List.mem_range]
      exact Or.inl (Or.inl ⟨i, hi, Or.inr hq⟩)

theorem code : Code L fend 0 0 (eudDiv a b ret x r0 r1 t) (ent start) fend := by
  refine .seq (emitAsg_code (some_eq (by decide +kernel)) ?_ _ _ _) (.seq (fillCode hI _ _ _ 32 0 rfl) (.seq (emitAsg_code (x := fend) (some_eq (by decide +kernel)) ?_ _ _ _) .ret))
  · intro q hq; refine hI.seqs _ ?_; simp only [seqs, List.mem_append]; exact Or.inr hq
  · intro q hq; refine hI.seqs _ ?_; simp only [seqs, List.mem_append]; exact Or.inl (Or.inr hq)

theorem cells {vs : List W} (hl : L.Laid exBuf vs) : DivCells L (a + 348) (ret + 348) x t := by
  have hw := hl.wf
  have hb : ∀ i < 32, C (ent fin) i ∈ L.P.blks := by
    intro i hi
    refine hI.blks _ ?_
    simp only [blks, List.mem_append, List.mem_map, List.mem_range]
    exact Or.inl (Or.inl ⟨i, hi, rfl⟩)
  refine ⟨cell_val hw (hI.vars 0 (by omega)), cell_val hw (hI.vars 2 (by omega)), hI.vars 3 (by omega), cell_val hw (hI.vars 3 (by omega)), ?_,
    by decide, by decide, by decide, ?_, ?_⟩
  · intro i hi
    exact ⟨(hl.hole (hb i hi) (o := 16) (by decide) (by simp [C, SBlk.wordAt, SCnd.word]) (by omega)).1,
      (hl.hole (hb i hi) (o := 348) (by decide) (by simp [C, SBlk.wordAt, SAct.word]) (by omega)).1⟩
  · intro i hi
    simp only [a, ret, x, exVar, exBuf, t, trigAt]
    omega
  · intro i hi j hj hij
    simp only [t, trigAt]
    omega

theorem fcode (h1 : L.cell nptr) (h2 : L.cell (r0 + 4)) (h3 : L.cell (r1 + 4)) : FuncCode L (ent start) fend nptr [r0, r1] (eudDiv a b ret x r0 r1 t) := by
  refine ⟨⟨0, 0, code hI⟩, ⟨by simp, ?_, h1, ?_, by decide⟩⟩
  · intro v vs h
    simp only [List.cons.injEq] at h
    obtain ⟨rfl, rfl⟩ := h
    exact ⟨by decide, hI.blks _ (by simp [blks])⟩
  · intro v hv
    simp only [List.mem_cons, List.not_mem_nil, or_false] at hv
    rcases hv with rfl | rfl
    · exact ⟨hI.blks _ (by simp [blks]), h2, by decide⟩
    · exact ⟨hI.blks _ (by simp [blks]), h3, by decide⟩

omit hI in
def scr : List Nat := (r0 + 348) :: (r1 + 348) :: divOnly (a + 348) (ret + 348) x t

end ExDiv

end Eud.SC
