import Verif.Machine.Emit
import Verif.Lib.Div
/-
Example for C21: the division routine is laid out and divides 1000000 by 7; and by 0.
-/

namespace Eud.SC.ExC21d

def a : Nat := exVar 0
def b : Nat := exVar 1
def ret : Nat := exVar 2
def x : Nat := exVar 3
def r0 : Nat := exVar 4
def r1 : Nat := exVar 5
def t (i : Nat) : Nat := trigAt i
/-- `chain[i]` -/
def C (fin i : Nat) : SBlk := ⟨t i, ⟨[.check (some (.mem (a + 348))) .atLeast none (some 0xFFFFFFFF)],
  [⟨some (.mem (a + 348)), .sub, none, some 0xFFFFFFFF⟩, sMem (ret + 348) .add (pow2 i)]⟩, some (if i = 0 then fin else t (i - 1)), false⟩

def fill (i : Nat) : Option (Nat × List Blk) := emitAsg (trigAt (40 + 2 * i)) (4 * i) [⟨t i + 16, .set, .var x⟩, ⟨t i + 348, .set, .var x⟩]
def fin : Option (Nat × List Blk) := emitAsg retAt 200 [⟨r0 + 348, .set, .var ret⟩, ⟨r1 + 348, .set, .var a⟩]
def ent (o : Option (Nat × List Blk)) : Nat := (o.map Prod.fst).getD 0
def bl (o : Option (Nat × List Blk)) : List Blk := (o.map Prod.snd).getD []
/-- entry of the `i`th round, or of the chain -/
def ente (i : Nat) : Nat := if i = 32 then t 31 else ent (fill i)
def dbl (i : Nat) : Option (Nat × List Blk) := emitAsg (ente (i + 1)) (4 * i + 2) [⟨x + 348, .add, .var x⟩]
def start : Option (Nat × List Blk) := emitAsg (ente 0) 300 [⟨ret + 348, .set, .const 0⟩, ⟨x + 348, .set, .var b⟩]
def cs : List PC := [cMemX (x + 348) .atLeast 1 0x80000000]
def L : Layout :=
  ⟨⟨(List.range 32).map (C (ent fin)) ++ (List.range 32).flatMap (fun i => emitBr (40 + 2 * i) cs (t i) (ent (dbl i))),
    (List.range 32).flatMap (fun i => bl (fill i) ++ bl (dbl i)) ++ bl fin ++ bl start, (List.range 6).map exVar⟩,
    (List.range 32).map (fun i => (trigAt (40 + 2 * i), ent (dbl i))), []⟩

theorem laid (u v : W) : L.Laid exBuf [u, v, 9, 9, 9, 9] := Layout.laidB_spec (show L.laidB exBuf 6 = true by decide +kernel)

theorem some_eq {o : Option (Nat × List Blk)} (h : o.isSome = true) : o = some (ent o, bl o) := by
  cases o with
  | none => cases h
  | some q => rfl

theorem chain (r b k : Nat) : ∀ n ≤ 32, Code L r b k (divChain (a + 348) (ret + 348) t n) (if n = 0 then ent fin else t (n - 1)) (ent fin)
  | 0, _ => .skip
  | n + 1, h => by
    have ih := chain r b k n (by omega)
    unfold divChain at ih ⊢
    rw [List.range_succ, List.reverse_append, List.reverse_singleton, List.singleton_append, List.map_cons]
    refine .seq (m := if n = 0 then ent fin else t (n - 1)) ?_ ih
    refine .trig ⟨rfl, trivial⟩ ⟨rfl, aMem_static _ _ _, trivial⟩ ?_
    simp only [L, List.mem_append, List.mem_map, List.mem_range]
    exact Or.inl ⟨n, by omega, rfl⟩

theorem fillCode (r b k : Nat) : ∀ n i, n + i = 32 → Code L r b k (divFill (a + 348) (ret + 348) x t n i) (ente i) (ent fin)
  | 0, i, h => by
    obtain rfl : i = 32 := by omega
    exact chain r b k 32 (by omega)
  | n + 1, i, h => by
    have ih := fillCode r b k n (i + 1) (by omega)
    have hi : i < 32 := by omega
    have hs : ∀ i < 32, (fill i).isSome = true ∧ (dbl i).isSome = true ∧ brOk (40 + 2 * i) cs = true := by decide +kernel
    obtain ⟨h1, h2, h3⟩ := hs i hi
    have he : ente i = ent (fill i) := by unfold ente; rw [if_neg (by omega)]
    rw [he]
    refine .seq (emitAsg_code (some_eq h1) ?_ _ _ _) (.ite .skip (emitBr_at (f := ent (dbl i)) (t := t i) h3 ?_ ?_) (chain r b k (i + 1) (by omega))
      (.seq (emitAsg_code (some_eq h2) ?_ _ _ _) ih))
    · intro q hq
      simp only [L, List.mem_append, List.mem_flatMap, List.mem_range]
      exact Or.inl (Or.inl ⟨i, hi, Or.inl hq⟩)
    · intro q hq
      simp only [L, List.mem_append, List.mem_flatMap, List.mem_range]
      exact Or.inr ⟨i, hi, hq⟩
    · simp only [L, List.mem_map, List.mem_range]
      exact ⟨i, hi, rfl⟩
    · intro q hq
      simp only [L, List.mem_append, List.mem_flatMap, List.mem_range]
      exact Or.inl (Or.inl ⟨i, hi, Or.inr hq⟩)

theorem code : Code L retAt 0 0 (eudDiv a b ret x r0 r1 t) (ent start) 0 := by
  refine .seq (emitAsg_code (some_eq (by decide +kernel)) ?_ _ _ _) (.seq (fillCode _ _ _ 32 0 rfl) (.seq (emitAsg_code (x := retAt) (some_eq (by decide +kernel)) ?_ _ _ _) .ret))
  · intro q hq; simp only [L, List.mem_append]; exact Or.inr hq
  · intro q hq; simp only [L, List.mem_append]; exact Or.inl (Or.inr hq)

theorem vars : ∀ i < 6, exVar i ∈ L.P.vars := by
  intro i hi
  simp only [L, List.mem_map, List.mem_range]
  exact ⟨i, hi, rfl⟩

theorem cells (u v : W) : DivCells L (a + 348) (ret + 348) x t := by
  have hw := (laid u v).wf
  have hb : ∀ i < 32, C (ent fin) i ∈ L.P.blks := by
    intro i hi
    simp only [L, List.mem_append, List.mem_map, List.mem_range]
    exact Or.inl ⟨i, hi, rfl⟩
  refine ⟨cell_val hw (vars 0 (by omega)), cell_val hw (vars 2 (by omega)), vars 3 (by omega), cell_val hw (vars 3 (by omega)), ?_, by decide, by decide, by decide, ?_, ?_⟩
  · intro i hi
    exact ⟨((laid u v).hole (hb i hi) (o := 16) (by decide) (by simp [C, SBlk.wordAt, SCnd.word]) (by omega)).1,
      ((laid u v).hole (hb i hi) (o := 348) (by decide) (by simp [C, SBlk.wordAt, SAct.word]) (by omega)).1⟩
  · intro i hi
    simp only [a, ret, x, exVar, exBuf, t, trigAt]
    omega
  · intro i hi j hj hij
    simp only [t, trigAt]
    omega

theorem run (u v : W) : ∃ m', Reaches ⟨L.mem exBuf [u, v, 9, 9, 9, 9], ent start⟩ ⟨m', retAt⟩ ∧
    (m' (r0 + 348)).toNat = (if v = 0 then 2 ^ 32 - 1 else u.toNat / v.toNat) ∧ (m' (r1 + 348)).toNat = (if v = 0 then u.toNat else u.toNat % v.toNat) := by
  have hl := laid u v
  have hw := hl.wf
  have hc : ∀ i < 6, L.cell (exVar i + 348) := fun i hi => cell_val hw (vars i hi)
  obtain ⟨o, s', hx, rfl, h1, h2, -⟩ := C21_div (b := b) (cells u v) (vars 0 (by omega)) (vars 1 (by omega)) (vars 2 (by omega)) (hc 4 (by omega)) (hc 5 (by omega))
    (by decide) (by decide) (by decide) (L.view (L.mem exBuf [u, v, 9, 9, 9, 9]))
  obtain ⟨m', hr, -, hv⟩ := C25_structured hw hx code _ hl.ok.1 rfl
  have ea := hl.exVal (i := 0) (by simp) []
  have eb := hl.exVal (i := 1) (by simp) []
  simp only [a, b, ea, eb, ← hv, hl.exView (i := 4) (by simp), hl.exView (i := 5) (by simp)] at h1 h2
  exact ⟨m', hr, h1, h2⟩

example : ∃ m', Reaches ⟨L.mem exBuf [1000000, 7, 9, 9, 9, 9], ent start⟩ ⟨m', retAt⟩ ∧ (m' (r0 + 348)).toNat = 142857 ∧ (m' (r1 + 348)).toNat = 1 :=
  run 1000000 7

end Eud.SC.ExC21d
