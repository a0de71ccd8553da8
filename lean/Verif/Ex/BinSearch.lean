import Verif.Lib.BinSearch
import Verif.Ex.MulLib
/-
Examples for C46 and C45: binary searches and the square root in memory.
-/

namespace Eud.SC

namespace ExBin

def x : Nat := exVar 0

/-- The condition `x <= k`. -/
def le (k : W) (_ : Nat) : Test := ⟨.skip, [cMem (x + 348) .atMost k]⟩
/-- The condition `x >= k`. -/
def ge (k : W) (_ : Nat) : Test := ⟨.skip, [cMem (x + 348) .atLeast k]⟩

theorem le_is {L : Layout} (hc : L.cell (x + 348)) (k : W) (i : Nat) : (le k i).Is L (fun _ => True) x (fun v => decide (v ≤ k.toNat)) [] := fun s _ =>
  Does.skip ⟨by simp [le, cMem_ok hc], by simp [le, compare, BitVec.le_def], trivial, Only.refl _ _⟩
theorem ge_is {L : Layout} (hc : L.cell (x + 348)) (k : W) (i : Nat) : (ge k i).Is L (fun _ => True) x (fun v => decide (k.toNat ≤ v)) [] := fun s _ =>
  Does.skip ⟨by simp [ge, cMem_ok hc], by simp [ge, compare, BitVec.le_def], trivial, Only.refl _ _⟩

/-- From what the code does to what the machine does. -/
theorem run {st : Stmt} (he : (emit retAt st 0 0 haltAt 0 0).isSome = true) (hl : (exLayout st 1).laidB exBuf 1 = true) {Q : W → Prop}
    (h : (exLayout st 1).cell (x + 348) → ∀ s, Does (exLayout st 1) st s fun s' => Q (s' (x + 348))) :
    ∃ m', Reaches ⟨(exLayout st 1).mem exBuf [9] [], exEntry st⟩ ⟨m', haltAt⟩ ∧ Q (m' (x + 348)) := by
  have hL : (exLayout st 1).Laid exBuf [9] := Layout.laidB_spec hl
  obtain ⟨s', h1, hq⟩ := (h (hL.exCell (i := 0) (by simp)) _).runs hL.wf (exCode he)
  obtain ⟨m', r, -, hv⟩ := h1 _ (hL.ok []).1 rfl
  rw [← hv, show x = exVar 0 from rfl, hL.exView (i := 0) (by simp)] at hq
  exact ⟨m', r, hq⟩

theorem ok {L : Layout} (hc : L.cell (x + 348)) : BinOk L (fun _ => True) x [] := ⟨hc, by simp, fun _ _ _ => trivial⟩

/-- The largest number from 3 to 100 that is at most 77. -/
example : ∃ m', Reaches ⟨(exLayout (binMaxC x 3 100 (le 77)) 1).mem exBuf [9] [], exEntry (binMaxC x 3 100 (le 77))⟩ ⟨m', haltAt⟩ ∧ m' (x + 348) = 77 := by
  refine run (by decide +kernel) (by decide +kernel) (Q := fun w => w = 77) ?_
  intro hc s
  refine (C46_max_const (ok hc) (by decide) (by decide) ?_ (by decide +kernel) (fun i _ => le_is hc 77 i) s trivial).mono ?_
  · intro u w _ h1 _ h2; simp only [decide_eq_true_eq] at h2 ⊢; omega
  · rintro s' ⟨⟨h1, h2, h3, h4⟩, -⟩
    have e : (77 : W).toNat = 77 := by decide
    have h5 : (s' (x + 348)).toNat ≤ 77 := by
      rcases h3 with h3 | h3
      · omega
      · simp only [decide_eq_true_eq] at h3; omega
    have h6 : ¬ (s' (x + 348)).toNat < 77 := fun hh => by
      have := h4 77 hh (by omega)
      simp at this
    exact BitVec.eq_of_toNat_eq (by rw [e]; omega)

/-- The smallest number from 3 to 100 that is at least 42. -/
example : ∃ m', Reaches ⟨(exLayout (binMinC x 3 100 (ge 42)) 1).mem exBuf [9] [], exEntry (binMinC x 3 100 (ge 42))⟩ ⟨m', haltAt⟩ ∧ m' (x + 348) = 42 := by
  refine run (by decide +kernel) (by decide +kernel) (Q := fun w => w = 42) ?_
  intro hc s
  refine (C46_min_const (ok hc) (by decide) (by decide) ?_ (fun i _ => ge_is hc 42 i) s trivial).mono ?_
  · intro u w _ h1 _ h2; simp only [decide_eq_true_eq] at h2 ⊢; omega
  · rintro s' ⟨⟨h1, h2, h3, h4⟩, -⟩
    have e : (42 : W).toNat = 42 := by decide
    have h5 : 42 ≤ (s' (x + 348)).toNat := by
      rcases h3 with h3 | h3
      · omega
      · simp only [decide_eq_true_eq] at h3; omega
    have h6 : ¬ 42 < (s' (x + 348)).toNat := fun hh => by
      have := h4 42 (by omega) hh
      simp at this
    exact BitVec.eq_of_toNat_eq (by rw [e]; omega)

/-- The smallest number from 5 to 5 that is at least 5 is said to be 6. -/
example : ∃ m', Reaches ⟨(exLayout (binMinC x 5 5 (ge 5)) 1).mem exBuf [9] [], exEntry (binMinC x 5 5 (ge 5))⟩ ⟨m', haltAt⟩ ∧ (m' (x + 348)).toNat = 6 :=
  run (by decide +kernel) (by decide +kernel) (Q := fun w => w.toNat = 6) fun hc s =>
    C46_counterexample_min_eq (ok hc) (by decide) (p := fun v => decide ((5 : W).toNat ≤ v)) (fun u hu => decide_eq_true hu) (fun i _ => ge_is hc 5 i) s trivial

/-- The largest number from 5 to 5 that is at most 0xFFFFFFFF is said to be 0x80000005. -/
example : ∃ m', Reaches ⟨(exLayout (binMaxC x 5 5 (le 0xFFFFFFFF)) 1).mem exBuf [9] [], exEntry (binMaxC x 5 5 (le 0xFFFFFFFF))⟩ ⟨m', haltAt⟩ ∧
    (m' (x + 348)).toNat = 0x80000005 :=
  run (by decide +kernel) (by decide +kernel) (Q := fun w => w.toNat = 0x80000005) fun hc s =>
    (C46_counterexample_max_eq (ok hc) (by decide) (by decide) (fun i _ => le_is hc 0xFFFFFFFF i) s trivial).mono fun _ h => h.1

/-- The largest number from 0xFFFFFFFB to 0xFFFFFFFF is said to be 2. -/
example : ∃ m', Reaches ⟨(exLayout (binMaxC x 0xFFFFFFFB 0xFFFFFFFF (le 0xFFFFFFFF)) 1).mem exBuf [9] [], exEntry (binMaxC x 0xFFFFFFFB 0xFFFFFFFF (le 0xFFFFFFFF))⟩
    ⟨m', haltAt⟩ ∧ m' (x + 348) = 2 :=
  run (by decide +kernel) (by decide +kernel) (Q := fun w => w = 2) fun hc s =>
    C46_counterexample_max_wrap (ok hc) (p := fun _ => true) (fun _ => rfl) (fun i _ => (le_is hc 0xFFFFFFFF i).congr fun v hv => by
      have e : (0xFFFFFFFF : W).toNat = 2 ^ 32 - 1 := by decide
      rw [e, decide_eq_true_eq]; omega) s trivial

end ExBin

namespace ExSqrt
open ExMul (cscr holes)

def n : Nat := exVar 3
def x : Nat := exVar 4
def r0 : Nat := exVar 5
def y (i : Nat) : Nat := exVar (6 + i)
/-- the conditions are in the branches, which are placed from the last round to the first -/
def c (i : Nat) : Nat := trigAt (200 + 3 * i) + (if i = 15 then 8 else 28)

def es0 (i : Nat) (cs : List PC) : ES :=
  .ite (.seq (.site i) (.base (.asg [⟨c i + 8, .set, .var n⟩]))) cs (.base .skip) (.base (.trig [] [aMem (x + 348) .sub (pow2 i)]))

def rounds : Nat → ES
  | 0 => .base .skip
  | i + 1 => .seq (.base (.asg [⟨x + 348, .add, .const (pow2 i)⟩])) (.seq (es0 i [cMem (x + 348) .atMost 0xFFFF, cMemV (y i + 348) .atMost (c i)]) (rounds i))

def es : ES := .seq (.seq (.base (.asg [⟨x + 348, .set, .const (BitVec.ofNat 32 (0 + 2 ^ 15))⟩])) (.seq (es0 15 [cMemV (y 15 + 348) .atMost (c 15)]) (rounds 15)))
  (.base (.seq (.asg [⟨r0 + 348, .set, .var x⟩]) .ret))

def S (L : Layout) (i : Nat) : Site := ExMul.site L (seqAt (101 + 4 * i)) (y (i % 16) + 348) (.var x) (.var x)

/-- No program. -/
def L0 : Layout := ⟨⟨[], [], []⟩, [], []⟩

def E : Emitted := (emitP retAt (S L0) es 0 0 0 200 100).getD .none

def L : Layout := ⟨⟨ExMul.blks ++ E.blks, ExMul.seqs ++ E.seqs, (List.range 22).map exVar⟩, ExMul.rest ++ sortRest E.rest, []⟩

theorem laid {v : List W} (h : v.length = 22) : L.Laid exBuf v := Layout.laidB_spec (by rw [h]; decide +kernel)

theorem vars : ∀ i < 22, exVar i ∈ L.P.vars := by
  intro i hi; simp only [L, List.mem_map, List.mem_range]; exact ⟨i, hi, rfl⟩

theorem inMul : ExMul.In L :=
  ⟨fun q hq => List.mem_append_left _ hq, fun q hq => List.mem_append_left _ hq, fun q hq => List.mem_append_left _ hq, fun i hi => vars i (by omega)⟩

def vs (k : W) : List W := [0, 0, 0, k, 7, 7, 7, 7, 7, 7, 7, 7, 7, 7, 7, 7, 7, 7, 7, 7, 7, 7]

theorem hl : L.Laid exBuf (vs 0) := laid rfl
theorem cells : ∀ x ∈ [ExMul.nptr, ExMul.r0 + 4, ExMul.r0 + 344, ExMul.r0 + 348], L.cell x := by
  have h : ∀ x ∈ [ExMul.nptr, ExMul.r0 + 4, ExMul.r0 + 344, ExMul.r0 + 348], L.cellB x = true := by decide +kernel
  exact fun x hx => hl.cellB (h x hx)
theorem cellV {i : Nat} (h : i < 22) : L.cell (exVar i + 348) := hl.exCell (by simpa [vs] using h)

theorem code : Code L retAt 0 0 (eudSqrt n x r0 y c fun i => (S L i).stmt L) E.e 0 := by
  have he : emitP retAt (S L) es 0 0 0 200 100 = some E := by
    have h1 : (emitP retAt (S L0) es 0 0 0 200 100).isSome = true := by decide +kernel
    obtain ⟨E', hE⟩ := Option.isSome_iff_exists.1 h1
    rw [emitP_congr (S := S L) (S' := S L0) (fun j => ⟨rfl, rfl, rfl, rfl, rfl⟩)]
    rw [E, hE]; rfl
  have hc := emitP_code hl.wf (fun j => (ExMul.siteF inMul hl cells _ _ _ _).1) (fun j => (ExMul.siteF inMul hl cells _ _ _ _).2) he
    ⟨fun q hq => List.mem_append_right _ hq, fun q hq => List.mem_append_right _ hq, fun q hq => List.mem_append_right _ (mem_sortRest.2 hq)⟩
  have hf : firstExp 0 0xFFFF = 15 := by decide +kernel
  unfold eudSqrt binMaxC
  rw [hf]
  exact hc

/-- What the multiplications may change, and the conditions. -/
def scr : List Nat := (List.range 16).flatMap (fun i => cscr (y i + 348) ++ [c i + 8])

theorem ok : SqrtOk L (MulRest L (ExMul.p2 31)) n x r0 y c (fun i => (S L i).stmt L) scr := by
  have hcc : ∀ i < 16, L.cellB (c i + 8) = true := by decide +kernel
  have hys : ∀ i < 16, y i + 348 ∈ scr ∧ c i + 8 ∈ scr := by decide +kernel
  have hq : ∀ i < 16, y i + 348 ∉ [ExMul.nptr, ExMul.r0 + 4, ExMul.r0 + 344, ExMul.r0 + 348, ExMul.p2 31 + 344, ExMul.p2 31 + 348] := by decide +kernel
  refine ⟨vars 3 (by omega), vars 4 (by omega), cellV (by omega), cellV (by omega), fun i hi => cellV (by omega), fun i hi => hl.cellB (hcc i hi),
    by decide +kernel, ?_, hys, by decide +kernel, by decide +kernel, by decide, ?_⟩
  · intro i hi s hs
    have hb : ∀ i < 16, seqAt (101 + 4 * i) < 2 ^ 32 := by decide +kernel
    have ha : ExMul.Arg L (.var x) := ExMul.arg_var (vars 4 (by omega)) (by decide +kernel)
    have he : ∀ i < 16, EpdOK (y i + 348) := by decide +kernel
    have hS : S L i = ExMul.site L (seqAt (101 + 4 * i)) (y i + 348) (.var x) (.var x) := by
      unfold S; rw [Nat.mod_eq_of_lt hi]
    rw [hS]
    refine (ExMul.call inMul hl cells (hb i hi) ⟨cellV (by omega), he i hi⟩ (hq i hi) ha ha s hs).mono ?_
    rintro s' ⟨h1, h2, h3⟩
    refine ⟨h1, h2, h3.mono ?_⟩
    intro z hz
    rcases List.mem_cons.1 hz with rfl | hz
    · exact List.mem_cons_self ..
    · refine List.mem_cons_of_mem _ ?_
      simp only [scr, List.mem_flatMap, List.mem_range]
      exact ⟨i, hi, List.mem_append_left _ hz⟩
  · have hd : ∀ i < 16, ExMul.p2 31 + 344 ≠ c i + 8 ∧ ExMul.p2 31 + 348 ≠ c i + 8 := by decide +kernel
    rintro s a w (h | ⟨i, hi, rfl⟩) h1
    · simp only [List.mem_cons, List.not_mem_nil, or_false] at h
      rcases h with rfl | rfl
      · exact h1.congr (set_ne (by decide +kernel)) (set_ne (by decide +kernel))
      · exact h1.congr (set_ne (by decide +kernel)) (set_ne (by decide +kernel))
    · exact h1.congr (set_ne (hd i hi).1) (set_ne (hd i hi).2)

/-- The machine computes integer square roots. -/
theorem run (k : W) : ∃ m', Reaches ⟨L.mem exBuf (vs k) holes, E.e⟩ ⟨m', retAt⟩ ∧ (m' (r0 + 348)).toNat * (m' (r0 + 348)).toNat ≤ k.toNat ∧
    k.toNat < ((m' (r0 + 348)).toNat + 1) * ((m' (r0 + 348)).toNat + 1) := by
  have h' := laid (v := vs k) rfl
  have en := h'.exVal (i := 3) (by simp [vs]) holes
  obtain ⟨o, s', h1, rfl, h2, h3, -⟩ := Wp.runs h'.wf (C45_sqrt ok _ (ExMul.rest0 inMul h')) code
  obtain ⟨m', hr, -, hv⟩ := h1 _ (h'.ok holes).1 rfl
  simp only [r0, n, ← hv, h'.exView (i := 5) (by simp [vs]), en] at h2 h3
  exact ⟨m', hr, h2, h3⟩

/-- The square root of 2000000000 is 44721. -/
example : ∃ m', Reaches ⟨L.mem exBuf (vs 2000000000) holes, E.e⟩ ⟨m', retAt⟩ ∧ (m' (r0 + 348)).toNat = 44721 := by
  obtain ⟨m', h1, h2, h3⟩ := run 2000000000
  refine ⟨m', h1, ?_⟩
  have e : (2000000000 : W).toNat = 2000000000 := by decide
  rw [e] at h2 h3
  generalize (m' (r0 + 348)).toNat = v at h2 h3
  have h4 : ¬ v ≤ 44720 := fun hh => by
    have := Nat.mul_le_mul (show v + 1 ≤ 44721 by omega) (show v + 1 ≤ 44721 by omega)
    omega
  have h5 : ¬ 44722 ≤ v := fun hh => by
    have := Nat.mul_le_mul hh hh
    omega
  omega

end ExSqrt

end Eud.SC
