import Verif.Machine.Emit
import Verif.Lib.Shift
import Verif.Ex.Div
/-
Examples for C22: a left shift, and a right shift that calls the division function.
-/

namespace Eud.SC

namespace ExShl

def a : Nat := exVar 0
def b : Nat := exVar 1
def t (i : Nat) : Nat := trigAt i
def L : Layout :=
  ⟨⟨[⟨t 0, ⟨[], [sNext a (t 2), sDest a (a + 348), sModi a .add]⟩, some (t 1), false⟩,
     ⟨t 1, ⟨[sChk (a + 348) .atLeast 1 0xFFFFFFFF, sChk (b + 348) .atLeast 1 0xFFFFFFFF], [sNext (t 1) a]⟩, none, false⟩,
     ⟨t 2, ⟨[], [sMem (b + 348) .sub 1, sNext (t 1) haltAt]⟩, some (t 1), false⟩], [], [a, b]⟩, [(t 1, haltAt)], []⟩

theorem laid (u v : W) : L.Laid exBuf [u, v] := Layout.laidB_spec (show L.laidB exBuf 2 = true by decide +kernel)

theorem code : LshiftCode L a b (t 0) (t 1) (t 2) haltAt :=
  ⟨by simp [L], by simp [L], by simp [L], by simp [L], by simp [L], by simp [L], by decide, by decide⟩

theorem run (u v : W) : ∃ m', Reaches ⟨L.mem exBuf [u, v], t 0⟩ ⟨m', haltAt⟩ ∧ m' (a + 348) = u <<< v.toNat := by
  have hl := laid u v
  obtain ⟨s', h1, h2, -⟩ := C22_lshift hl.wf code (by decide) (L.view (L.mem exBuf [u, v]))
  obtain ⟨m', hr, -, hv⟩ := h1 _ hl.ok.1 rfl
  have ea := hl.exVal (i := 0) (by simp) []
  have eb := hl.exVal (i := 1) (by simp) []
  simp only [a, b, ea, eb, ← hv, hl.exView (i := 0) (by simp)] at h2
  exact ⟨m', hr, h2⟩

example : ∃ m', Reaches ⟨L.mem exBuf [0x12345678, 12], t 0⟩ ⟨m', haltAt⟩ ∧ m' (a + 348) = 0x45678000 := run 0x12345678 12
example : ∃ m', Reaches ⟨L.mem exBuf [0x12345678, 0xFFFFFFFF], t 0⟩ ⟨m', haltAt⟩ ∧ m' (a + 348) = 0 := by
  obtain ⟨m', h1, h2⟩ := run 0x12345678 0xFFFFFFFF
  refine ⟨m', h1, h2.trans ?_⟩
  apply BitVec.eq_of_toNat_eq
  rw [BitVec.toNat_shiftLeft, Nat.shiftLeft_eq]
  exact Nat.mod_eq_zero_of_dvd (Nat.dvd_trans (Nat.pow_dvd_pow 2 (by decide)) (Nat.dvd_mul_left _ _))

end ExShl

namespace ExShr
open ExC21d (ent bl some_eq cs t)

/-- parameters and locals of the division -/
def a : Nat := exVar 0
def b : Nat := exVar 1
def ret : Nat := exVar 2
def x : Nat := exVar 3
/-- operands, result, `2 ** y`, quotient, remainder -/
def u : Nat := exVar 4
def v : Nat := exVar 5
def w : Nat := exVar 6
def p : Nat := exVar 7
def q : Nat := exVar 8
def rm : Nat := exVar 9
/-- result variables of the division -/
def r0 : Nat := trigAt 200
def r1 : Nat := trigAt 201
def fend : Nat := trigAt 202
def nptr : Nat := fend + 328 + 32 + 20

def C (fin i : Nat) : SBlk := ⟨t i, ⟨[.check (some (.mem (a + 348))) .atLeast none (some 0xFFFFFFFF)],
  [⟨some (.mem (a + 348)), .sub, none, some 0xFFFFFFFF⟩, sMem (ret + 348) .add (pow2 i)]⟩, some (if i = 0 then fin else t (i - 1)), false⟩
def fill (i : Nat) : Option (Nat × List Blk) := emitAsg (trigAt (40 + 2 * i)) (4 * i) [⟨t i + 16, .set, .var x⟩, ⟨t i + 348, .set, .var x⟩]
def fin : Option (Nat × List Blk) := emitAsg fend 200 [⟨r0 + 348, .set, .var ret⟩, ⟨r1 + 348, .set, .var a⟩]
def ente (i : Nat) : Nat := if i = 32 then t 31 else ent (fill i)
def dbl (i : Nat) : Option (Nat × List Blk) := emitAsg (ente (i + 1)) (4 * i + 2) [⟨x + 348, .add, .var x⟩]
def start : Option (Nat × List Blk) := emitAsg (ente 0) 300 [⟨ret + 348, .set, .const 0⟩, ⟨x + 348, .set, .var b⟩]
/-- end of the shift: `w = q` -/
def last : Option (Nat × List Blk) := emitAsg haltAt 500 [⟨w + 348, .set, .var q⟩]
def back : Nat := ent last
/-- call of the division -/
def rs : List (Nat × Nat) := [(r0, q + 348), (r1, rm + 348)]
def args : List (Nat × Src) := [(a + 348, .var u), (b + 348, .var p)]
def site : Option (Nat × List Blk) := emitAsg (ent start) 400 (callAsg nptr back rs args)
/-- `p = 2 ** v` -/
def pw : Option Emitted := emit 0 (exp2 (v + 348) (p + 348)) 0 0 (ent site) 300 600
def pwE : Emitted := pw.getD ⟨0, 0, 0, [], [], []⟩
def sc : Nat := trigAt 210
def here : Nat := trigAt 211

def L : Layout :=
  ⟨⟨(List.range 32).map (C (ent fin)) ++ (List.range 32).flatMap (fun i => emitBr (40 + 2 * i) ExC21d.cs (t i) (ent (dbl i))) ++
    [fretBlk r0, fretBlk r1, ⟨fend, ⟨[], retActs [r0, r1]⟩, some r0, false⟩,
     ⟨sc, ⟨[sChk (v + 348) .atLeast 32 0xFFFFFFFF], [sMem (w + 348) .set 0, sNext sc here]⟩, none, false⟩,
     ⟨here, ⟨[], [sNext sc pwE.e]⟩, some haltAt, false⟩] ++ pwE.blks,
    (List.range 32).flatMap (fun i => bl (fill i) ++ bl (dbl i)) ++ bl fin ++ bl start ++ bl site ++ bl last ++ pwE.seqs, (List.range 10).map exVar⟩,
    (List.range 32).map (fun i => (trigAt (40 + 2 * i), ent (dbl i))) ++ [(sc, pwE.e)], []⟩

theorem laid (vs : List W) (h : vs.length = 10) : L.Laid exBuf vs := Layout.laidB_spec (by rw [h]; show L.laidB exBuf 10 = true; decide +kernel)

theorem chain (r b k : Nat) : ∀ n ≤ 32, Code L r b k (divChain (a + 348) (ret + 348) t n) (if n = 0 then ent fin else t (n - 1)) (ent fin)
  | 0, _ => .skip
  | n + 1, h => by
    have ih := chain r b k n (by omega)
    unfold divChain at ih ⊢
    rw [List.range_succ, List.reverse_append, List.reverse_singleton, List.singleton_append, List.map_cons]
    refine .seq (m := if n = 0 then ent fin else t (n - 1)) ?_ ih
    refine .trig ⟨rfl, trivial⟩ ⟨rfl, aMem_static _ _ _, trivial⟩ ?_
    simp only [L, List.mem_append, List.mem_map, List.mem_range]
    exact Or.inl (Or.inl (Or.inl ⟨n, by omega, rfl⟩))

theorem fillCode (r b k : Nat) : ∀ n i, n + i = 32 → Code L r b k (divFill (a + 348) (ret + 348) x t n i) (ente i) (ent fin)
  | 0, i, h => by
    obtain rfl : i = 32 := by omega
    exact chain r b k 32 (by omega)
  | n + 1, i, h => by
    have ih := fillCode r b k n (i + 1) (by omega)
    have hi : i < 32 := by omega
    have hs : ∀ i < 32, (fill i).isSome = true ∧ (dbl i).isSome = true ∧ brOk (40 + 2 * i) cs = true := by decide +kernel
    obtain ⟨h1, h2, h3⟩ := hs i hi
    have he : ente i = ent (fill i) := by unfold ente; rw [if_neg (by omega)]
    rw [he]
    refine .seq (emitAsg_code (some_eq h1) ?_ _ _ _) (.ite .skip (emitBr_at (f := ent (dbl i)) (t := t i) h3 ?_ ?_) (chain r b k (i + 1) (by omega))
      (.seq (emitAsg_code (some_eq h2) ?_ _ _ _) ih))
    · intro q hq
      simp only [L, List.mem_append, List.mem_flatMap, List.mem_range]
      exact Or.inl (Or.inl (Or.inl (Or.inl (Or.inl ⟨i, hi, Or.inl hq⟩))))
    · intro q hq
      simp only [L, List.mem_append, List.mem_flatMap, List.mem_range]
      exact Or.inl (Or.inl (Or.inr ⟨i, hi, hq⟩))
    · simp only [L, List.mem_append, List.mem_map, List.mem_range]
      exact Or.inl ⟨i, hi, rfl⟩
    · intro q hq
      simp only [L, List.mem_append, List.mem_flatMap, List.mem_range]
      exact Or.inl (Or.inl (Or.inl (Or.inl (Or.inl ⟨i, hi, Or.inr hq⟩))))

theorem code : Code L fend 0 0 (eudDiv a b ret x r0 r1 t) (ent start) fend := by
  refine .seq (emitAsg_code (some_eq (by decide +kernel)) ?_ _ _ _) (.seq (fillCode _ _ _ 32 0 rfl) (.seq (emitAsg_code (x := fend) (some_eq (by decide +kernel)) ?_ _ _ _) .ret))
  · intro q hq; simp only [L, List.mem_append]; exact Or.inl (Or.inl (Or.inl (Or.inr hq)))
  · intro q hq; simp only [L, List.mem_append]; exact Or.inl (Or.inl (Or.inl (Or.inl (Or.inr hq))))

def vs (y z : W) : List W := [0, 0, 0, 0, y, z, 9, 9, 9, 9]

theorem vars : ∀ i < 10, exVar i ∈ L.P.vars := by
  intro i hi
  simp only [L, List.mem_map, List.mem_range]
  exact ⟨i, hi, rfl⟩

theorem hl : L.Laid exBuf (vs 0 0) := laid _ rfl

theorem cells : DivCells L (a + 348) (ret + 348) x t := by
  have hw := hl.wf
  have hb : ∀ i < 32, C (ent fin) i ∈ L.P.blks := by
    intro i hi
    simp only [L, List.mem_append, List.mem_map, List.mem_range]
    exact Or.inl (Or.inl (Or.inl ⟨i, hi, rfl⟩))
  have hr : ∀ i < 32, ∀ p ∈ L.rest, t i + 16 ≠ p.1 + 4 ∧ t i + 348 ≠ p.1 + 4 := by decide +kernel
  refine ⟨cell_val hw (vars 0 (by omega)), cell_val hw (vars 2 (by omega)), vars 3 (by omega), cell_val hw (vars 3 (by omega)), ?_, by decide, by decide, by decide, ?_, ?_⟩
  · intro i hi
    exact ⟨(hl.hole (hb i hi) (o := 16) (by decide) (by simp [C, SBlk.wordAt, SCnd.word]) (by omega)).1,
      (hl.hole (hb i hi) (o := 348) (by decide) (by simp [C, SBlk.wordAt, SAct.word]) (by omega)).1⟩
  · intro i hi
    simp only [a, ret, x, exVar, exBuf, t, trigAt]
    omega
  · intro i hi j hj hij
    simp only [t, trigAt]
    omega

theorem fcode : FuncCode L (ent start) fend nptr [r0, r1] (eudDiv a b ret x r0 r1 t) := by
  refine ⟨⟨0, 0, code⟩, ⟨by simp, ?_, hl.cellB (by decide +kernel), ?_, by decide⟩⟩
  · intro v vs h
    simp only [List.cons.injEq] at h
    obtain ⟨rfl, rfl⟩ := h
    exact ⟨by decide, by simp [L]⟩
  · intro v hv
    simp only [List.mem_cons, List.not_mem_nil, or_false] at hv
    rcases hv with rfl | rfl
    · exact ⟨by simp [L], hl.cellB (by decide +kernel), by decide⟩
    · exact ⟨by simp [L], hl.cellB (by decide +kernel), by decide⟩

def scr : List Nat := (r0 + 348) :: (r1 + 348) :: divOnly (a + 348) (ret + 348) x t

theorem callOk : CallOk L nptr rs args scr := by
  refine ⟨hl.cellB (by decide +kernel), ?_, ?_, ?_, ?_, ?_, ?_, ?_, ?_, ?_, ?_, ?_, ?_, ?_⟩ <;>
    (try simp only [rs, args, List.forall_mem_cons, List.not_mem_nil, false_imp_iff, implies_true, and_true, Src.var.injEq, forall_eq'])
  · exact ⟨⟨hl.cellB (by decide +kernel), hl.cellB (by decide +kernel), by decide⟩, hl.cellB (by decide +kernel), hl.cellB (by decide +kernel), by decide⟩
  · exact ⟨⟨hl.cellB (by decide +kernel), vars 4 (by omega)⟩, hl.cellB (by decide +kernel), vars 7 (by omega)⟩
  all_goals decide +kernel

theorem dv : Comp2 L (.prim (CallRel L fend nptr back (eudDiv a b ret x r0 r1 t) rs args)) (q + 348) (rm + 348)
      (fun s => udivE (s (u + 348)) (s (p + 348))) (fun s => if s (p + 348) = 0 then s (u + 348) else s (u + 348) % s (p + 348)) (callOnly nptr rs args scr) :=
  C21_call hl.wf cells (vars 0 (by omega)) (vars 1 (by omega)) (vars 2 (by omega)) (hl.cellB (by decide +kernel)) (hl.cellB (by decide +kernel)) (by decide)
    (by decide) (by decide) rfl callOk fcode (by decide +kernel)

theorem rcode : RshiftCode L v w sc here pwE.e haltAt :=
  ⟨by simp [L], by simp [L], by simp [L], vars 5 (by omega), vars 6 (by omega), by decide⟩

theorem site_code : CallSite L (ent site) back (ent start) nptr rs args :=
  ⟨⟨0, 0, 0, emitAsg_code (some_eq (by decide +kernel)) (by
    intro q hq; simp only [L, List.mem_append]; exact Or.inl (Or.inl (Or.inr hq))) _ _ _⟩, by decide +kernel⟩

theorem body : Code L 0 0 0 (.seqs [exp2 (v + 348) (p + 348), .prim (CallRel L fend nptr back (eudDiv a b ret x r0 r1 t) rs args),
    .asg [⟨w + 348, .set, .var q⟩]]) pwE.e haltAt := by
  have hpw : pw = some pwE := by
    have : pw.isSome = true := by decide +kernel
    unfold pwE
    cases h : pw with
    | none => rw [h] at this; cases this
    | some q => rfl
  refine .seq (emit_code hpw ⟨?_, ?_, ?_⟩) (.seq (C31_call hl.wf fcode site_code (by decide) _ _ _) (.seq (emitAsg_code (x := haltAt) (some_eq (by decide +kernel)) ?_ _ _ _) .skip))
  · intro q hq; simp only [L, List.mem_append]; exact Or.inr hq
  · intro q hq; simp only [L, List.mem_append]; exact Or.inr hq
  · have : pwE.rest = [] := by decide +kernel
    rw [this]; simp
  · intro q hq; simp only [L, List.mem_append]; exact Or.inl (Or.inr hq)

theorem run (y z : W) : ∃ m', Reaches ⟨L.mem exBuf (vs y z), sc⟩ ⟨m', haltAt⟩ ∧ m' (w + 348) = y >>> z.toNat := by
  have h' := laid (vs y z) rfl
  obtain ⟨s', h1, h2, -⟩ := C22_rshift (a := u) hl.wf rcode
    (scr1 := []) (scr2 := (rm + 348) :: callOnly nptr rs args scr) (fun s => C22_exp2 (hl.cellB (by decide +kernel)) (hl.cellB (by decide +kernel)) (by decide) s)
    (fun s => (dv s).mono fun s' h => ⟨h.1, h.2.2⟩) (vars 8 (by omega)) (by decide) body (L.view (L.mem exBuf (vs y z)))
  obtain ⟨m', hr, -, hv⟩ := h1 _ h'.ok.1 rfl
  have ea := h'.exVal (i := 4) (by simp [vs]) []
  have eb := h'.exVal (i := 5) (by simp [vs]) []
  simp only [u, v, w, ea, eb, ← hv, h'.exView (i := 6) (by simp [vs])] at h2
  exact ⟨m', hr, h2⟩

example : ∃ m', Reaches ⟨L.mem exBuf (vs 0x12345678 12), sc⟩ ⟨m', haltAt⟩ ∧ m' (w + 348) = 0x12345 := run 0x12345678 12
example : ∃ m', Reaches ⟨L.mem exBuf (vs 0x12345678 32), sc⟩ ⟨m', haltAt⟩ ∧ m' (w + 348) = 0 := run 0x12345678 32

end ExShr

end Eud.SC
