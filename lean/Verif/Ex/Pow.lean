import Verif.Lib.Pow
import Verif.Ex.MulLib
/-
Examples for C44: the power function in memory, together with the multiplication it calls.
-/

namespace Eud.SC

namespace ExPow
open ExMul (cscr holes)

def a : Nat := exVar 3
def b : Nat := exVar 4
def ret : Nat := exVar 5
def n : Nat := exVar 6
def r0 : Nat := exVar 7
def c1 : Nat := trigAt 200 + 8
def c2 : Nat := trigAt 202 + 8

/-- `ret *= a` and `a *= a` -/
def S (L : Layout) : Nat → Site
  | 0 => ExMul.site L (seqAt 104) (ret + 348) (.var ret) (.var a)
  | _ => ExMul.site L (seqAt 101) (a + 348) (.var a) (.var a)

def es : ES :=
  .seq (.base (.asg [⟨ret + 348, .set, .const 1⟩, ⟨n + 348, .set, .const 1⟩]))
    (.seq (.loop false (.base (.asg [⟨c1 + 8, .set, .var b⟩])) [cMemV (n + 348) .atMost c1]
      (.seq (.ite (.base (.asg [⟨c2, .set, .var n⟩])) [cMemM (b + 348) .atLeast 1 c2] (.site 0) (.base .skip))
        (.seq (.base (.asg [⟨n + 348, .add, .var n⟩])) (.seq (.site 1) (.base .skip)))) (.base .skip))
      (.base (.seq (.asg [⟨r0 + 348, .set, .var ret⟩]) .ret)))

/-- No program. -/
def L0 : Layout := ⟨⟨[], [], []⟩, [], []⟩

/-- The function with its calls placed. -/
def E : Emitted := (emitP retAt (S L0) es 0 0 0 200 100).getD .none

def L : Layout := ⟨⟨ExMul.blks ++ E.blks, ExMul.seqs ++ E.seqs, (List.range 8).map exVar⟩, ExMul.rest ++ E.rest, []⟩

theorem laid {v : List W} (h : v.length = 8) : L.Laid exBuf v := Layout.laidB_spec (by rw [h]; decide +kernel)

theorem vars : ∀ i < 8, exVar i ∈ L.P.vars := by
  intro i hi; simp only [L, List.mem_map, List.mem_range]; exact ⟨i, hi, rfl⟩

theorem inMul : ExMul.In L :=
  ⟨fun q hq => List.mem_append_left _ hq, fun q hq => List.mem_append_left _ hq, fun q hq => List.mem_append_left _ hq, fun i hi => vars i (by omega)⟩

def vs (x y : W) : List W := [0, 0, 0, x, y, 7, 7, 7]

theorem hl : L.Laid exBuf (vs 0 0) := laid rfl
theorem cells : ∀ x ∈ [ExMul.nptr, ExMul.r0 + 4, ExMul.r0 + 344, ExMul.r0 + 348], L.cell x := by
  have h : ∀ x ∈ [ExMul.nptr, ExMul.r0 + 4, ExMul.r0 + 344, ExMul.r0 + 348], L.cellB x = true := by decide +kernel
  exact fun x hx => hl.cellB (h x hx)

theorem code : Code L retAt 0 0 (eudPow b ret n c1 c2 r0 ((S L 0).stmt L) ((S L 1).stmt L)) E.e 0 := by
  have he : emitP retAt (S L) es 0 0 0 200 100 = some E := by
    have h1 : (emitP retAt (S L0) es 0 0 0 200 100).isSome = true := by decide +kernel
    obtain ⟨E', hE⟩ := Option.isSome_iff_exists.1 h1
    rw [emitP_congr (S' := S L0) (by intro j; match j with | 0 => exact ⟨rfl, rfl, rfl, rfl, rfl⟩ | _ + 1 => exact ⟨rfl, rfl, rfl, rfl, rfl⟩)]
    rw [E, hE]; rfl
  exact emitP_code hl.wf (fun j => by match j with | 0 => exact (ExMul.siteF inMul hl cells _ _ _ _).1 | _ + 1 => exact (ExMul.siteF inMul hl cells _ _ _ _).1)
    (fun j => by match j with | 0 => exact (ExMul.siteF inMul hl cells _ _ _ _).2 | _ + 1 => exact (ExMul.siteF inMul hl cells _ _ _ _).2) he
    ⟨fun q hq => List.mem_append_right _ hq, fun q hq => List.mem_append_right _ hq, fun q hq => List.mem_append_right _ hq⟩

theorem ok : PowOk L (MulRest L (ExMul.p2 31)) a b ret n c1 c2 r0 ((S L 0).stmt L) ((S L 1).stmt L) (cscr (ret + 348)) (cscr (a + 348)) := by
  have hcc : ∀ x ∈ [c1 + 8, c2], L.cellB x = true := by decide +kernel
  refine ⟨vars 4 (by omega), vars 5 (by omega), vars 6 (by omega), hl.exCell (i := 6) (by simp [vs]), hl.exCell (i := 4) (by simp [vs]), hl.exCell (i := 5) (by simp [vs]),
    hl.cellB (hcc _ (by simp)), hl.cellB (hcc _ (by simp)), hl.exCell (i := 7) (by simp [vs]), by decide +kernel, ?_, ?_, by decide +kernel, by decide +kernel, ?_⟩
  · exact ExMul.call inMul hl cells (by decide) ⟨hl.exCell (i := 5) (by simp [vs]), by decide⟩ (by decide +kernel) (ExMul.arg_var (vars 5 (by omega)) (by decide +kernel))
      (ExMul.arg_var (vars 3 (by omega)) (by decide +kernel))
  · exact ExMul.call inMul hl cells (by decide) ⟨hl.exCell (i := 3) (by simp [vs]), by decide⟩ (by decide +kernel) (ExMul.arg_var (vars 3 (by omega)) (by decide +kernel))
      (ExMul.arg_var (vars 3 (by omega)) (by decide +kernel))
  · intro s s' h h1
    exact h1.congr (h _ (by decide +kernel)) (h _ (by decide +kernel))

/-- The machine computes powers. -/
theorem run (x y : W) (hy : y.toNat < 2 ^ 31) : ∃ m', Reaches ⟨L.mem exBuf (vs x y) holes, E.e⟩ ⟨m', retAt⟩ ∧ (m' (r0 + 348)).toNat = x.toNat ^ y.toNat % 2 ^ 32 := by
  have h' := laid (v := vs x y) rfl
  have ea := h'.exVal (i := 3) (by simp [vs]) holes
  have eb := h'.exVal (i := 4) (by simp [vs]) holes
  obtain ⟨o, s', h1, rfl, h2, -⟩ := Wp.runs h'.wf (C44_pow ok _ (ExMul.rest0 inMul h') (by unfold b; rw [eb]; exact hy)) code
  obtain ⟨m', hr, -, hv⟩ := h1 _ (h'.ok holes).1 rfl
  simp only [r0, a, b, ← hv, h'.exView (i := 7) (by simp [vs]), ea, eb] at h2
  exact ⟨m', hr, h2⟩

example : ∃ m', Reaches ⟨L.mem exBuf (vs 7 13) holes, E.e⟩ ⟨m', retAt⟩ ∧ (m' (r0 + 348)).toNat = 7 ^ 13 % 2 ^ 32 := run 7 13 (by decide)

open ExC21d (ent bl some_eq)

/-- The parts of the loop as they are placed. -/
def bodyES : ES := .seq (.ite (.base (.asg [⟨c2, .set, .var n⟩])) [cMemM (b + 348) .atLeast 1 c2] (.site 0) (.base .skip))
  (.seq (.base (.asg [⟨n + 348, .add, .var n⟩])) (.seq (.site 1) (.base .skip)))
def bodyE : Emitted := (emitP retAt (S L0) bodyES (seqAt 100) (seqAt 101) (seqAt 101) 202 102).getD .none
def initQ : Option (Nat × List Blk) := emitAsg (seqAt 101) bodyE.m [⟨ret + 348, .set, .const 1⟩, ⟨n + 348, .set, .const 1⟩]
def fillQ : Option (Nat × List Blk) := emitAsg (trigAt 200) 101 [⟨c1 + 8, .set, .var b⟩]

theorem bodyCode : Code L retAt (seqAt 100) (seqAt 101) (.seqs [.ite (.asg [⟨c2, .set, .var n⟩]) [cMemM (b + 348) .atLeast 1 c2] ((S L 0).stmt L) .skip,
    .asg [⟨n + 348, .add, .var n⟩], ((S L 1).stmt L)]) bodyE.e (seqAt 101) := by
  have he : emitP retAt (S L) bodyES (seqAt 100) (seqAt 101) (seqAt 101) 202 102 = some bodyE := by
    have h1 : (emitP retAt (S L0) bodyES (seqAt 100) (seqAt 101) (seqAt 101) 202 102).isSome = true := by decide +kernel
    obtain ⟨E', hE⟩ := Option.isSome_iff_exists.1 h1
    rw [emitP_congr (S' := S L0) (by intro j; match j with | 0 => exact ⟨rfl, rfl, rfl, rfl, rfl⟩ | _ + 1 => exact ⟨rfl, rfl, rfl, rfl, rfl⟩)]
    rw [bodyE, hE]; rfl
  refine emitP_code hl.wf (fun j => by match j with | 0 => exact (ExMul.siteF inMul hl cells _ _ _ _).1 | _ + 1 => exact (ExMul.siteF inMul hl cells _ _ _ _).1)
    (fun j => by match j with | 0 => exact (ExMul.siteF inMul hl cells _ _ _ _).2 | _ + 1 => exact (ExMul.siteF inMul hl cells _ _ _ _).2) he ⟨?_, ?_, ?_⟩
  · have h : ∀ q ∈ bodyE.blks, q ∈ E.blks := by decide +kernel
    exact fun q hq => List.mem_append_right _ (h q hq)
  · have h : ∀ q ∈ bodyE.seqs, q ∈ E.seqs := by decide +kernel
    exact fun q hq => List.mem_append_right _ (h q hq)
  · have h : ∀ q ∈ bodyE.rest, q ∈ E.rest := by decide +kernel
    exact fun q hq => List.mem_append_right _ (h q hq)

/-- With an exponent of 2 ^ 31 or more the machine comes back to the head of the loop again and again. -/
theorem stuck (x y : W) (hy : 2 ^ 31 ≤ y.toNat) : ∀ N, ∃ k m', N ≤ k ∧ stepN k ⟨L.mem exBuf (vs x y) holes, E.e⟩ = some ⟨m', ent fillQ⟩ := by
  have h' := laid (v := vs x y) rfl
  have eb := h'.exVal (i := 4) (by simp [vs]) holes
  have hQ : ∀ q ∈ bl fillQ ++ bl initQ, q ∈ E.seqs := by decide +kernel
  have hB : ∀ q ∈ emitBr 200 [cMemV (n + 348) .atMost c1] bodyE.e (seqAt 100), q ∈ E.blks := by decide +kernel
  have hR : ((trigAt 200, seqAt 100) : Nat × Nat) ∈ E.rest := by decide +kernel
  have e1 : ent fillQ = seqAt 101 := by decide +kernel
  have e2 : E.e = ent initQ := by decide +kernel
  rw [e2]
  refine C44_diverges h'.wf ok (fend := retAt) (x := seqAt 100) (i := seqAt 101) (c := trigAt 200) (ta := bodyE.e)
    (emitAsg_code (x := ent fillQ) (m := bodyE.m) ?_ (fun q hq => List.mem_append_right _ (hQ q (List.mem_append_right _ hq))) _ _ _)
    (emitAsg_code (some_eq (by decide +kernel)) (fun q hq => List.mem_append_right _ (hQ q (List.mem_append_left _ hq))) _ _ _)
    (emitBr_at (by decide +kernel) (fun q hq => List.mem_append_right _ (hB q hq)) (List.mem_append_right _ hR))
    bodyCode (e1 ▸ .skip) (by rw [e1]; decide) (h'.ok holes).1 (ExMul.rest0 inMul h') ?_
  · rw [e1]; exact some_eq (by decide +kernel)
  · unfold b; rw [eb]; exact hy

/-- `2 ** 0x80000000` is not computed. -/
example : ∀ N, ∃ k m', N ≤ k ∧ stepN k ⟨L.mem exBuf (vs 2 0x80000000) holes, E.e⟩ = some ⟨m', ent fillQ⟩ := stuck 2 0x80000000 (by decide)

end ExPow

end Eud.SC
