import Verif.Ex.Kit
import Verif.Lib.VArr
/-
Example for C42: an array of three variables in memory, `a[k] = x; a[j] = j; p[1] = 9; o = p[i]` for all `k`, `j`, `i` and `x`, where `p` is `a` cast from a variable.
-/

namespace Eud.SC

namespace ExVArr

/-- The first element. -/
def arr : Nat := 0xE020000
def k : Nat := exVar 0
def j : Nat := exVar 1
def i : Nat := exVar 2
def x : Nat := exVar 3
def o : Nat := exVar 4
/-- Address and EPD in variables. -/
def pa : Nat := exVar 5
def pe : Nat := exVar 6

def V : VSh where
  g := trigAt 0
  gi := trigAt 1
  si := trigAt 2
  lv := 0xE030000
  ig := fun n => trigAt (3 + n)
  is := fun n => trigAt (31 + n)

def P0 : Nat := trigAt 60
def P1 : Nat := trigAt 61
def P1' : Nat := trigAt 62
def P2 : Nat := trigAt 63
def P3 : Nat := trigAt 64

def AA : VArrs where
  V := V
  n := 1
  base := fun _ => arr
  len := fun _ => 3
  U := [k + 348, j + 348, i + 348, x + 348, o + 348, pa + 348, pe + 348]

def op0 : VOp := .put 0 (.const (epd arr)) (.var x) (.var k) P1
def op1 : VOp := .put 0 (.const (epd arr)) (.var j) (.var j) P2
def op2 : VOp := .put 0 (.var pe) (.const 9) (.const 1) P3
def op3 : VOp := .get 0 (.var pa) (.var i) haltAt (o + 348)

def bitBlk (A : Nat → Nat) (lv : Nat) (c : Cursor) (fin n : Nat) : SBlk :=
  ⟨A n, ⟨[(cMemX lv .atLeast 1 (pow2 n)).c], (c.move (2 ^ n : Nat)).map PA.a⟩, some (if n = 0 then fin else A (n - 1)), false⟩

def b0 : SBlk := ⟨P0, ⟨[], (V.setQ 1 P1 (.const (epd arr)) (.var x) (.var k)).map QA.act⟩, some x, false⟩
def b1 : SBlk := ⟨P1, ⟨[], (V.sameQ j P1' (.const (epd arr))).map QA.act⟩, some j, false⟩
def b1' : SBlk := ⟨P1', ⟨[], (V.sameQ2 1 P2 j).map QA.act⟩, some j, false⟩
def b2 : SBlk := ⟨P2, ⟨[], (V.setQ 1 P3 (.var pe) (.const 9) (.const 1)).map QA.act⟩, some pe, false⟩
def b3 : SBlk := ⟨P3, ⟨[], (V.getQ 1 haltAt (o + 348) (.var pa) (.var i)).map QA.act⟩, some i, false⟩

def shared : List SBlk :=
  [⟨V.g, ⟨[], [aPutM (V.g + 328) .set].map PA.a⟩, none, false⟩, ⟨V.gi, ⟨[], V.giActs.map PA.a⟩, none, false⟩, ⟨V.si, ⟨[], [aPutM (V.si + 328) .set].map PA.a⟩, none, false⟩] ++
  ((List.range 28).map (bitBlk V.ig V.lv [(V.gi + 348, 0, 72)] V.gi) ++ (List.range 28).map (bitBlk V.is V.lv [(V.si + 344, 0, 18)] V.si))

def L0 : Layout := ⟨⟨shared ++ [b0, b1, b1', b2, b3], [], (List.range 7).map exVar⟩, [], []⟩
def X : List (Nat × Nat) := pvPins arr ++ pvPins (arr + 72) ++ pvPins (arr + 144)
def L : Layout := L0.pin X

def vs (kv jv iv xv : W) : List W := [kv, jv, iv, xv, 7, BitVec.ofNat 32 arr, epd arr]
/-- The elements before. -/
def f0 (i : Nat) : W := if i = 0 then 10 else if i = 1 then 20 else 30
def elemHoles (n : Nat) : List (Nat × W) := [(arr + 72 * n + 4, BitVec.ofNat 32 V.g), (arr + 72 * n + 344, epd (V.g + 348)), (arr + 72 * n + 348, f0 n), (arr + 72 * n + 352, pmod .set)]
def holes : List (Nat × W) := elemHoles 0 ++ elemHoles 1 ++ elemHoles 2
def mem (vals : List W) : Mem := L0.mem exBuf vals (pinHoles X ++ holes)

theorem laid (kv jv iv xv : W) : L0.Laid exBuf (vs kv jv iv xv) := Layout.laidB_spec (show L0.laidB exBuf 7 = true by decide +kernel)
theorem pins : L0.pinB exBuf 7 X = true := by decide +kernel
theorem laid0 : L0.Laid exBuf (vs 0 0 0 0) := laid 0 0 0 0
theorem wf : L.Wf := laid0.pinWf pins
theorem ok (kv jv iv xv : W) : L.Ok (mem (vs kv jv iv xv)) := (laid kv jv iv xv).pinOk pins holes
theorem cell {x : Nat} (h : L0.pinCellB X x = true) : L.cell x := laid0.pinCellB h

theorem vm {n : Nat} (h : n < 7) : exVar n ∈ L.P.vars := laid0.exVars h

theorem pv {n : Nat} (h : n < 3) : PVar L (arr + 72 * n) := by
  have h1 : ∀ n < 3, (∀ r ∈ pvPins (arr + 72 * n), r ∈ X) ∧ (∀ o ∈ [4, 344, 348, 352], L0.Free exBuf 7 (arr + 72 * n + o) ∧ ∀ r ∈ X, arr + 72 * n + o ≠ r.1 + 4) := by decide +kernel
  exact PVar.pin laid0 (h1 n h).1 (h1 n h).2

theorem sh {b : SBlk} (h : b ∈ shared) : b ∈ L.P.blks := List.mem_append_left _ h

theorem shOk : V.Ok L where
  bg := sh (.head _)
  bgi := sh (.tail _ (.head _))
  bsi := sh (.tail _ (.tail _ (.head _)))
  big := fun n hn => sh (List.mem_append_right _ (List.mem_append_left _ (List.mem_map.2 ⟨n, List.mem_range.2 (by omega), rfl⟩)))
  bis := fun n hn => sh (List.mem_append_right _ (List.mem_append_right _ (List.mem_map.2 ⟨n, List.mem_range.2 (by omega), rfl⟩)))
  cell := by
    have : ∀ y ∈ V.scr, L0.pinCellB X y = true := by decide +kernel
    exact fun y hy => cell (this y hy)
  nd := by decide +kernel
  eg := by decide +kernel
  egi := by decide +kernel
  esi := by decide +kernel
  elv := by decide +kernel
  lg := by decide
  lsi := by decide
  lig := fun n hn => by simp only [V, trigAt]; omega
  lis := fun n hn => by simp only [V, trigAt]; omega

theorem varOk {n : Nat} (h : n < 7) : VSh.VarOk L V (.var (exVar n)) := by
  rintro v hv
  cases hv
  have h1 : ∀ n < 7, exVar n + 348 ∉ V.scr ∧ EpdOK (exVar n + 4) ∧ EpdOK (exVar n + 344) := by decide +kernel
  exact ⟨vm h, h1 n h⟩

theorem constOk {c : W} : VSh.VarOk L V (.const c) := by rintro v hv; cases hv

theorem code0 : Code L retAt 0 0 (op0.stmt L AA) P0 P1 :=
  VSh.set_code wf shOk (k := 1) (e := .const (epd arr)) (x := .var x) (i := .var k) (by decide) (by decide) constOk (varOk (n := 3) (by decide)) (varOk (n := 0) (by decide)) (by rintro v h; cases h)
    (by rintro v h; cases h; decide) (by rintro ⟨a, b, c, h, h2, h3⟩; cases h2) (List.mem_append_right _ (.head _))

theorem code1 : Code L retAt 0 0 (op1.stmt L AA) P1 P2 :=
  VSh.same_code wf shOk (k := 1) (i := j) (t2 := P1') (e := .const (epd arr)) (by decide) (by decide) (by decide) constOk (varOk (n := 1) (by decide)) (by rintro h; cases h)
    (List.mem_append_right _ (.tail _ (.head _))) (List.mem_append_right _ (.tail _ (.tail _ (.head _))))

theorem code2 : Code L retAt 0 0 (op2.stmt L AA) P2 P3 :=
  VSh.set_code wf shOk (k := 1) (e := .var pe) (x := .const 9) (i := .const 1) (by decide) (by decide) (varOk (n := 6) (by decide)) constOk constOk
    (by intro v h; cases h; exact ⟨by decide, by decide⟩) (by rintro v h; cases h) (by rintro ⟨a, b, c, h, h2, h3⟩; cases h) (List.mem_append_right _ (.tail _ (.tail _ (.tail _ (.head _)))))

theorem code3 : Code L retAt 0 0 (op3.stmt L AA) P3 haltAt :=
  VSh.get_code wf shOk (k := 1) (a := .var pa) (idx := .var i) (by decide) (by decide) (by decide +kernel) (cell (by decide +kernel)) (by decide +kernel) (varOk (n := 5) (by decide)) (varOk (n := 2) (by decide))
    (by rintro v h; cases h; decide) (List.mem_append_right _ (.tail _ (.tail _ (.tail _ (.tail _ (.head _))))))

def ops : List VOp := [op0, op1, op2, op3]

theorem code : Code L retAt 0 0 (.seqs (ops.map (VOp.stmt L AA))) P0 haltAt := .seq code0 (.seq code1 (.seq code2 (.seq code3 .skip)))

theorem arrOk : AA.Ok L where
  sh := shOk
  len := fun _ _ => show 3 < 2 ^ 28 by decide
  lt := fun k i h => by have := h.2; simp only [AA, VArrs.at, arr] at this ⊢; omega
  ep := fun k i h => by
    have h2 : i < 3 := h.2
    have : ∀ i < 3, EpdOK (arr + 72 * i + 348) := by decide +kernel
    exact this i h2
  el := fun k i h => pv h.2
  inj := fun k i k' i' h h' e => by
    have h1 : k < 1 := h.1
    have h2 : k' < 1 := h'.1
    simp only [VArrs.at, AA, VSh.dws, List.mem_cons, List.not_mem_nil, or_false] at e
    omega
  esc := fun k i h => by
    have h2 : i < 3 := h.2
    have : ∀ i < 3, ∀ x ∈ VSh.dws (arr + 72 * i), x ∉ V.scr ∧ x ∉ AA.U := by decide +kernel
    exact this i h2
  usc := by decide +kernel

theorem opsOk : ∀ op ∈ ops, op.Ok L AA := by
  have hc : ∀ {c : W}, SrcIn AA.U (.const c) := by rintro c v h; cases h
  have hv : ∀ {v : Nat}, v + 348 ∈ AA.U → SrcIn AA.U (.var v) := by intro v h w e; cases e; exact h
  intro op h
  rcases List.mem_cons.1 h with rfl | h
  · exact ⟨hc, hv (by decide), hv (by decide)⟩
  rcases List.mem_cons.1 h with rfl | h
  · exact ⟨hc, hv (by decide), hv (by decide)⟩
  rcases List.mem_cons.1 h with rfl | h
  · exact ⟨hv (by decide), hc, hc⟩
  rcases List.mem_cons.1 h with rfl | h
  · exact ⟨hv (by decide), hv (by decide), by decide⟩
  · cases h

/-- What is read at the end. -/
def res (kv jv iv xv : W) : W :=
  let f1 := fun n => if n = kv.toNat then xv else f0 n
  let f2 := fun n => if n = jv.toNat then jv else f1 n
  let f3 := fun n => if n = 1 then 9 else f2 n
  f3 iv.toNat

theorem run {kv jv iv xv : W} (hk : kv.toNat < 3) (hj : jv.toNat < 3) (hi : iv.toNat < 3) :
    ∃ m', Reaches ⟨mem (vs kv jv iv xv), P0⟩ ⟨m', haltAt⟩ ∧ m' (o + 348) = res kv jv iv xv := by
  have hl := laid kv jv iv xv
  have hvw : ∀ y, L0.pinCellB X y = true → L.view (mem (vs kv jv iv xv)) y = mem (vs kv jv iv xv) y := fun y h => Layout.view_at (cell h).2
  have vv : ∀ n : Nat, (h : n < 7) → L.view (mem (vs kv jv iv xv)) (exVar n + 348) = (vs kv jv iv xv)[n]'h := by
    intro n h
    have : ∀ n < 7, L0.pinCellB X (exVar n + 348) = true := by decide +kernel
    rw [hvw _ (this n h)]
    exact (hl.ok _).2 n h
  have hin : ∀ {n}, n < 3 → AA.In 0 n := fun h => ⟨Nat.one_pos, h⟩
  have el : ∀ i < 3, ∀ o ∈ [4, 344, 348, 352], L.view (mem (vs kv jv iv xv)) (arr + 72 * i + o) =
      match (pinHoles X ++ holes).find? (fun r => r.1 == arr + 72 * i + o) with | some r => r.2 | none => 0 := by
    intro i hi o ho
    have hc : ∀ i < 3, ∀ o ∈ [4, 344, 348, 352], L0.pinCellB X (arr + 72 * i + o) = true := by decide +kernel
    have fr : ∀ i < 3, ∀ o ∈ [4, 344, 348, 352], L0.Free exBuf 7 (arr + 72 * i + o) := by decide +kernel
    rw [hvw _ (hc i hi o ho)]
    exact hl.free (fr i hi o ho) (by decide) _
  have I : VArrIs AA (L.view (mem (vs kv jv iv xv))) (fun _ => f0, L.view (mem (vs kv jv iv xv))) := by
    refine ⟨fun k i h => ?_, fun k i h => ?_, ?_, fun _ _ => rfl⟩
    · have hv : ∀ i < 3, (match (pinHoles X ++ holes).find? (fun r => r.1 == arr + 72 * i + 348) with | some r => r.2 | none => 0) = f0 i := by decide +kernel
      exact (el i h.2 348 (by simp)).trans (hv i h.2)
    · have h1 : ∀ i < 3, (match (pinHoles X ++ holes).find? (fun r => r.1 == arr + 72 * i + 4) with | some r => r.2 | none => 0) = BitVec.ofNat 32 V.g := by decide +kernel
      have h2 : ∀ i < 3, (match (pinHoles X ++ holes).find? (fun r => r.1 == arr + 72 * i + 344) with | some r => r.2 | none => 0) = epd (V.g + 348) := by decide +kernel
      have h3 : ∀ i < 3, (match (pinHoles X ++ holes).find? (fun r => r.1 == arr + 72 * i + 352) with | some r => r.2 | none => 0) = pmod .set := by decide +kernel
      exact ⟨(el i h.2 4 (by simp)).trans (h1 i h.2), (el i h.2 344 (by simp)).trans (h2 i h.2), (el i h.2 352 (by simp)).trans (h3 i h.2)⟩
    · rw [show AA.V.gi = V.gi from rfl, hvw _ (by decide +kernel)]
      have := (hl.hole (b := ⟨V.gi, ⟨[], V.giActs.map PA.a⟩, none, false⟩) (List.mem_append_left _ (.tail _ (.head _))) (o := 348) (by decide) (by decide +kernel) (by decide) (pinHoles X ++ holes)).2
      exact this.trans (by decide +kernel)
  have e1 := vv 0 (by decide)
  have e2 := vv 1 (by decide)
  have e3 := vv 2 (by decide)
  have e4 := vv 3 (by decide)
  have e5 := vv 5 (by decide)
  have e6 := vv 6 (by decide)
  have hr : ∃ f, VOp.run AA ops (fun _ => f0, L.view (mem (vs kv jv iv xv))) = some (f, (L.view (mem (vs kv jv iv xv))).set (o + 348) (res kv jv iv xv)) := by
    generalize L.view (mem (vs kv jv iv xv)) = s at *
    simp only [vs, List.getElem_cons_zero, List.getElem_cons_succ] at e1 e2 e3 e4 e5 e6
    simp only [ops, VOp.run, op0, op1, op2, op3, VOp.spec, Src.valM, k, j, i, x, pa, pe]
    apply Exists.intro
    simp only [e1, e2, e3, e4, e5, e6]
    rw [if_pos ⟨hin hk, rfl⟩, Option.bind_some]
    simp only [e1, e2, e3, e4, e5, e6]
    rw [if_pos ⟨hin hj, rfl⟩, Option.bind_some]
    simp only [e1, e2, e3, e4, e5, e6]
    have c0 : AA.In 0 (1 : W).toNat ∧ epd arr = epd (AA.base 0) := ⟨hin (by decide), rfl⟩
    rw [if_pos c0, Option.bind_some]
    simp only [e1, e2, e3, e4, e5, e6]
    rw [if_pos ⟨hin hi, rfl⟩, Option.bind_some]
    simp only [true_and, res]
    rfl
  obtain ⟨f, hr⟩ := hr
  obtain ⟨s', x1, h1⟩ := C42_varray arrOk ops _ _ _ opsOk I hr
  obtain ⟨m', rr, ok', hv'⟩ := (C25_structured wf x1 code) _ (ok kv jv iv xv) rfl
  refine ⟨m', rr, ?_⟩
  rw [← Layout.view_at (m := m') (cell (show L0.pinCellB X (o + 348) = true by decide +kernel)).2, hv', h1.u (o + 348) (by decide +kernel)]
  simp only [set_eq]

end ExVArr

end Eud.SC
