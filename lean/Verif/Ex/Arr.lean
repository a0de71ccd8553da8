import Verif.Ex.Read
import Verif.Lib.Arr
/-
Example for C42: an array of three elements in memory, `a[2] = 77; a[k] = x; a[j] += 9; o = a[i]` for all `k`, `j`, `i` and `x`.
-/

namespace Eud.SC

namespace ExArr

open ExRead (cpc rend A T base q1 t1 tabBlks tabBlks_mem some_getD)

/-- The first element. -/
def arr : Nat := 0xE020000
def k : Nat := exVar 0
def j : Nat := exVar 1
def i : Nat := exVar 2
def x : Nat := exVar 3
def o : Nat := exVar 4
def t : Nat := exVar 5
def t' : Nat := exVar 6

def P0 : Nat := trigAt 99
def P1 : Nat := trigAt 100
def P2 : Nat := trigAt 101
def P3 : Nat := trigAt 102
def p : Nat := P3 + 328

def AA : Arrs where
  n := 1
  base := fun _ => arr
  len := fun _ => 3
  rend := rend
  cpc := cpc
  U := [k + 348, j + 348, i + 348, x + 348, o + 348, t + 348]

def op0 : ArrOp := .put 0 (P0 + 328) t' false .set (.const (epd arr)) (.const 2) (.const 77)
def op1 : ArrOp := .put 0 p t' false .set (.const (epd arr)) (.var k) (.var x)
def op2 : ArrOp := .put 0 p t' false .add (.const (epd arr)) (.var j) (.const 9)
def op3 : ArrOp := .get 0 t (.const (epd arr)) (.var i) (sumAsg t (.const (epd arr)) (.var i)) (.var t) haltAt (o + 348)

def r2 : Option (Nat × List Blk) := emitAsg (A t1) 20 (epdOps rend cpc haltAt (o + 348) (.var t) none)
def n2 : Nat := (r2.getD (0, [])).1
def r1 : Option (Nat × List Blk) := emitAsg n2 0 (sumAsg t (.const (epd arr)) (.var i))
def n1 : Nat := (r1.getD (0, [])).1

def r0 : Option (Nat × List Blk) := emitAsg P0 40 []
def n0 : Nat := (r0.getD (0, [])).1
def b0 : SBlk := ⟨P0, ⟨[], [(actX (P0 + 328) .set (.const (epd arr + 2)) (.const 77) (.const 0xFFFFFFFF)).a]⟩, some P1, false⟩
def b1 : SBlk := ⟨P1, ⟨[], (isetVC k (epd arr) x P2 .set).map QA.act⟩, some k, false⟩
def b2 : SBlk := ⟨P2, ⟨[], (fillVC j (epd arr) p P3).map QA.act⟩, some j, false⟩
def b3 : SBlk := ⟨P3, ⟨[], [⟨none, .add, some 9, some 0xFFFFFFFF⟩]⟩, some n1, false⟩

def L0 : Layout := ⟨⟨rendBlk rend :: (tabBlks A rend 0 T.trigs ++ [b0, b1, b2, b3]), (r0.getD (0, [])).2 ++ (r1.getD (0, [])).2 ++ (r2.getD (0, [])).2, (List.range 7).map exVar⟩, [], []⟩
def X : List (Nat × Nat) := pvPins cpc
def L : Layout := L0.pin X

def vs (kv jv iv xv : W) : List W := [kv, jv, iv, xv, 7, 8, 9]
def holes : List (Nat × W) := [(cpc + 348, 5), (cpc + 352, pmod .set), (arr, 10), (arr + 4, 20), (arr + 8, 30)]
def mem (vals : List W) : Mem := L0.mem exBuf vals (pinHoles X ++ holes)

theorem laid (kv jv iv xv : W) : L0.Laid exBuf (vs kv jv iv xv) := Layout.laidB_spec (show L0.laidB exBuf 7 = true by decide +kernel)
theorem pins : L0.pinB exBuf 7 X = true := by decide +kernel
def laid0 := laid 0 0 0 0
theorem wf : L.Wf := laid0.pinWf pins
theorem ok (kv jv iv xv : W) : L.Ok (mem (vs kv jv iv xv)) := (laid kv jv iv xv).pinOk pins holes
theorem pv : PVar L cpc := PVar.pin laid0 (fun _ h => h) (by decide +kernel)
theorem blkCell {x : Nat} (h : L0.cellB x = true ∧ ∀ r ∈ X, x ≠ r.1 + 4) : L.cell x := Layout.pin_cell (laid0.cellB h.1) h.2

theorem tab : RdTab L T A rend := by
  have hc : ∀ x ∈ [rend + 4, rend + 344, rend + 348, cpAddr], L0.cellB x = true ∧ ∀ r ∈ X, x ≠ r.1 + 4 := by decide +kernel
  have hc' : ∀ x ∈ [rend + 4, rend + 344, rend + 348, cpAddr], L.cell x := fun x hx => blkCell (hc x hx)
  refine ⟨fun t r h => ?_, List.mem_cons_self .., hc' _ (by simp), hc' _ (by simp), hc' _ (by simp), hc' _ (by simp), by decide⟩
  have := tabBlks_mem (A := A) (rend := rend) (k := 0) h
  rw [Nat.zero_add] at this
  exact List.mem_cons_of_mem _ (List.mem_append_left _ this)

theorem reader1 : Reader L rend (A t1) 0xFFFFFFFF 0 :=
  Reader.of (q := q1) wf base [ExRead.q2] (by decide) ExRead.req1 (by rw [show (RT.run RT.empty base).run [ExRead.q2] = T from by decide +kernel]; exact tab)

theorem vm {n : Nat} (h : n < 7) : exVar n ∈ L.P.vars := laid0.exVars h
theorem b0m : b0 ∈ L.P.blks := List.mem_cons_of_mem _ (List.mem_append_right _ (.head _))
theorem b1m : b1 ∈ L.P.blks := List.mem_cons_of_mem _ (List.mem_append_right _ (.tail _ (.head _)))
theorem b2m : b2 ∈ L.P.blks := List.mem_cons_of_mem _ (List.mem_append_right _ (.tail _ (.tail _ (.head _))))
theorem b3m : b3 ∈ L.P.blks := List.mem_cons_of_mem _ (List.mem_append_right _ (.tail _ (.tail _ (.tail _ (.head _)))))

theorem rdok : RdOk L rend cpc (o + 348) (.var t) := by
  refine ⟨pv, by decide +kernel, blkCell (by decide +kernel), by decide, by decide +kernel, by decide +kernel, by decide, ?_⟩
  intro v hv
  cases hv
  exact ⟨vm (n := 5) (by decide), by decide +kernel⟩

theorem code3 : Code L retAt 0 0 (op3.stmt L AA) n1 haltAt := by
  refine .seq (m := n2) ?_ (C32_epd_code wf tab reader1 rdok (by decide) (emitAsg_code (some_getD (show r2.isSome = true by decide +kernel) _) (fun _ hb => List.mem_append_right _ hb) retAt 0 0))
  have h : r1 = some (n1, (r1.getD (0, [])).2) := some_getD (show r1.isSome = true by decide +kernel) (0, [])
  exact emitAsg_code (L := L) h (fun _ hb => List.mem_append_left _ (List.mem_append_right _ hb)) retAt 0 0

theorem code2 : Code L retAt 0 0 (op2.stmt L AA) P2 n1 := by
  refine .seq (m := P3) (fillVC_code (c := epd arr) (a := j) wf (Or.inr ⟨rfl, rfl⟩) (vm (n := 1) (by decide)) (by decide) (blkCell (by decide +kernel)) (by decide) (by decide) b2m) ?_
  exact .trig (x := n1) trivial (placedAB_spec (by decide +kernel)) b3m

theorem code1 : Code L retAt 0 0 (op1.stmt L AA) P1 P2 :=
  isetVC_code (c := epd arr) (a := k) wf (Or.inr ⟨rfl, rfl⟩) (vm (n := 0) (by decide)) (vm (n := 3) (by decide)) (by decide) (by decide) (by decide) (by decide +kernel) b1m

theorem code0 : Code L retAt 0 0 (op0.stmt L AA) n0 P1 := by
  refine .seq (m := P0) ?_ (.trig trivial (placedAB_spec (by decide +kernel)) b0m)
  have h : r0 = some (n0, (r0.getD (0, [])).2) := some_getD (show r0.isSome = true by decide +kernel) (0, [])
  exact emitAsg_code (L := L) h (fun _ hb => List.mem_append_left _ (List.mem_append_left _ hb)) retAt 0 0

def ops : List ArrOp := [op0, op1, op2, op3]

theorem code : Code L retAt 0 0 (.seqs (ops.map (ArrOp.stmt L AA))) n0 haltAt := .seq code0 (.seq code1 (.seq code2 (.seq code3 .skip)))

theorem arrOk : AA.Ok L where
  al := fun _ _ => show arr % 4 = 0 by decide
  lt := fun k i h => by have := h.2; simp only [AA, Arrs.at, arr] at this ⊢; omega
  plain := fun k i h => by
    have h2 : i < 3 := h.2
    have : ∀ i < 3, PlainEpd (epd arr + BitVec.ofNat 32 i) := by decide +kernel
    exact this i h2
  cell := fun k i h => by
    have h2 : i < 3 := h.2
    have : ∀ i < 3, L0.cellB (arr + 4 * i) = true ∧ ∀ r ∈ X, arr + 4 * i ≠ r.1 + 4 := by decide +kernel
    exact blkCell (this i h2)
  inj := fun k i k' i' h h' e => by have h1 : k < 1 := h.1; have h2 : k' < 1 := h'.1; simp only [Arrs.at, AA] at e; omega
  rdn := fun k i h => by
    have h2 : i < 3 := h.2
    have : ∀ i < 3, arr + 4 * i ∉ AA.rd := by decide +kernel
    exact this i h2
  un := fun k i h => by
    have h2 : i < 3 := h.2
    have : ∀ i < 3, arr + 4 * i ∉ AA.U := by decide +kernel
    exact this i h2
  urd := by decide +kernel

theorem putOk {p : Nat} (hp : p = P0 + 328 ∨ p = ExArr.p) {f : Bool} {md : Mod} {a key x : Src} (h16 : ∀ v, (a = .var v ∨ key = .var v) → p = ExArr.p) (h : ∀ v, (a = .var v ∨ key = .var v ∨ x = .var v) → v ∈ L.P.vars ∧ v ≠ t' ∧ v + 348 ∈ AA.U) : (ArrOp.put 0 p t' f md a key x).Ok L AA := by
  refine ⟨⟨fun v hv => by rw [h16 v hv]; exact blkCell (by decide +kernel), vm (n := 6) (by decide), blkCell (by decide +kernel), by rcases hp with rfl | rfl <;> decide, fun v hv => ⟨(h v hv).1, (h v hv).2.1⟩⟩,
    fun v e => (h v (Or.inl e)).2.2, fun v e => (h v (Or.inr (Or.inl e))).2.2, fun v e => (h v (Or.inr (Or.inr e))).2.2, ?_⟩
  intro y hy
  have h1 : ∀ y ∈ [t' + 348, p, p + 16, p + 20], y ∉ AA.U ∧ y ∉ AA.rd ∧ ∀ i < 3, arr + 4 * i ≠ y := by rcases hp with rfl | rfl <;> decide +kernel
  exact ⟨(h1 y hy).1, (h1 y hy).2.1, fun k i h => (h1 y hy).2.2 i h.2⟩

theorem opsOk : ∀ op ∈ ops, op.Ok L AA := by
  intro op h
  rcases List.mem_cons.1 h with rfl | h
  · refine putOk (Or.inl rfl) (by rintro v (h | h) <;> cases h) ?_
    rintro v (h | h | h) <;> cases h
  rcases List.mem_cons.1 h with rfl | h
  · refine putOk (Or.inr rfl) (fun _ _ => rfl) ?_
    rintro v (h | h | h) <;> cases h
    · exact ⟨vm (n := 0) (by decide), by decide, by decide⟩
    · exact ⟨vm (n := 3) (by decide), by decide, by decide⟩
  rcases List.mem_cons.1 h with rfl | h
  · refine putOk (Or.inr rfl) (fun _ _ => rfl) ?_
    rintro v (h | h | h) <;> cases h
    exact ⟨vm (n := 1) (by decide), by decide, by decide⟩
  rcases List.mem_cons.1 h with rfl | h
  · refine ⟨.fresh (by rintro ⟨c, d, h1, h2⟩; cases h2), ?_, ?_, ?_, ⟨?_, ?_⟩, rdok, by decide⟩
    · rintro v (h | h) <;> cases h
      decide
    · rintro v h; cases h
    · rintro v h; cases h; decide
    · intro g hg
      refine ⟨?_, ?_, ?_⟩
      · rw [(sumAsg_mem hg).1]; exact blkCell (by decide +kernel)
      · rw [(sumAsg_mem hg).1]; decide
      · intro v hv
        rcases (sumAsg_mem hg).2 with h | h <;> rw [h] at hv <;> cases hv
        decide
    · intro g hg v hv
      rcases (sumAsg_mem hg).2 with h | h <;> rw [h] at hv <;> cases hv
      exact vm (n := 2) (by decide)
  · cases h

/-- The elements before. -/
def f0 (i : Nat) : W := if i = 0 then 10 else if i = 1 then 20 else 30
/-- What is read at the end. -/
def res (kv jv iv xv : W) : W :=
  let f1 := fun n => if n = kv.toNat then xv else if n = 2 then 77 else f0 n
  let f2 := fun n => if n = jv.toNat then f1 n + 9 else f1 n
  f2 iv.toNat

theorem run {kv jv iv xv : W} (hk : kv.toNat < 3) (hj : jv.toNat < 3) (hi : iv.toNat < 3) :
    ∃ m', Reaches ⟨mem (vs kv jv iv xv), n0⟩ ⟨m', haltAt⟩ ∧ m' (o + 348) = res kv jv iv xv := by
  have hl := laid kv jv iv xv
  have hvw : ∀ y, L0.cellB y = true ∧ (∀ r ∈ X, y ≠ r.1 + 4) → L.view (mem (vs kv jv iv xv)) y = mem (vs kv jv iv xv) y := fun y h => Layout.view_at (blkCell h).2
  have vv : ∀ n : Nat, (h : n < 7) → L.view (mem (vs kv jv iv xv)) (exVar n + 348) = (vs kv jv iv xv)[n]'h := by
    intro n h
    have : ∀ n < 7, L0.cellB (exVar n + 348) = true ∧ ∀ r ∈ X, exVar n + 348 ≠ r.1 + 4 := by decide +kernel
    rw [hvw _ (this n h)]
    exact (hl.ok _).2 n h
  have hin : ∀ {n}, n < 3 → AA.In 0 n := fun h => ⟨Nat.one_pos, h⟩
  have I : ArrIs AA (L.view (mem (vs kv jv iv xv))) (fun _ => f0, L.view (mem (vs kv jv iv xv))) := by
    refine ⟨fun k i h => ?_, ?_, ?_, fun _ _ => rfl⟩
    · have h2 : i < 3 := h.2
      have hc : ∀ i < 3, L0.cellB (arr + 4 * i) = true ∧ ∀ r ∈ X, arr + 4 * i ≠ r.1 + 4 := by decide +kernel
      have fr : ∀ i < 3, L0.Free exBuf 7 (arr + 4 * i) := by decide +kernel
      have hv : ∀ i < 3, (match (pinHoles X ++ holes).find? (fun r => r.1 == arr + 4 * i) with | some r => r.2 | none => 0) = f0 i := by decide +kernel
      show L.view (mem (vs kv jv iv xv)) (arr + 4 * i) = f0 i
      rw [hvw _ (hc i h2)]
      exact (hl.free (fr i h2) (by decide) _).trans (hv i h2)
    · rw [show AA.cpc = cpc from rfl, hvw _ (by decide +kernel)]
      exact (hl.free (show L0.Free exBuf 7 (cpc + 352) by decide +kernel) (by decide) _).trans (by decide +kernel)
    · rw [show AA.rend = rend from rfl, hvw _ (by decide +kernel)]
      have := (hl.hole (show rendBlk rend ∈ L0.P.blks from List.mem_cons_self ..) (o := 348) (by decide) (by decide +kernel) (by decide) (pinHoles X ++ holes)).2
      exact this.trans (by decide +kernel)
  have vals : ∀ {e : Mem}, Only [t + 348, o + 348] (L.view (mem (vs kv jv iv xv))) e → e (k + 348) = kv ∧ e (j + 348) = jv ∧ e (i + 348) = iv ∧ e (x + 348) = xv := by
    intro e h
    refine ⟨(h _ (by decide +kernel)).trans (vv 0 (by decide)), (h _ (by decide +kernel)).trans (vv 1 (by decide)), (h _ (by decide +kernel)).trans (vv 2 (by decide)), (h _ (by decide +kernel)).trans (vv 3 (by decide))⟩
  obtain ⟨e1, e2, e3, e4⟩ := vals (Only.refl _ _)
  have hr : ∃ f, ArrOp.run AA ops (fun _ => f0, L.view (mem (vs kv jv iv xv))) = some (f,
      (runAsg (sumAsg t (.const (epd arr)) (.var i)) (L.view (mem (vs kv jv iv xv)))).set (o + 348) (res kv jv iv xv)) := by
    simp only [ops, ArrOp.run, op0, op1, op2, op3, ArrOp.spec, Src.valM]
    apply Exists.intro
    have c0 : AA.In 0 (2 : W).toNat ∧ epd arr = epd (AA.base 0) := ⟨hin (by decide), rfl⟩
    simp only [c0, and_self, if_true, Option.bind_some]
    simp only [e1, e2, e3, e4]
    rw [if_pos ⟨hin hk, trivial⟩, Option.bind_some]
    simp only [e2]
    rw [if_pos ⟨hin hj, trivial⟩, Option.bind_some]
    simp only [e3]
    rw [if_pos ⟨hin hi, trivial⟩, Option.bind_some]
    simp only [true_and, res, arith]
    rfl
  obtain ⟨f, hr⟩ := hr
  obtain ⟨s', x1, h1⟩ := C42_array arrOk ops _ _ _ opsOk I hr
  obtain ⟨m', rr, ok', hv'⟩ := (C25_structured wf x1 code) _ (ok kv jv iv xv) rfl
  refine ⟨m', rr, ?_⟩
  rw [← Layout.view_at (m := m') (blkCell (show L0.cellB (o + 348) = true ∧ ∀ r ∈ X, o + 348 ≠ r.1 + 4 by decide +kernel)).2, hv', h1.u (o + 348) (by decide +kernel)]
  simp only [set_eq]

end ExArr

end Eud.SC
