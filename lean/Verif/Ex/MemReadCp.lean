import Verif.Ex.MemRead
import Verif.Ex.Read
/-
Examples for the readers at the current player of C32: `f_dwepdread_cp(v)` for a variable `v`, then `f_maskread_cp(3, 0x7FF000)` with a shared reader.
-/

namespace Eud.SC

namespace ExMemReadCp

/-- Result variables and end of `f_dwepdread_cp`. -/
def p : Nat := trigAt 0
def q : Nat := trigAt 1
def fend : Nat := trigAt 2
def nptr : Nat := fendPtr [p, q] fend

def v : Nat := exVar 0
def t : Nat := exVar 1
def o1 : Nat := exVar 2
def o2 : Nat := exVar 3
def o3 : Nat := exVar 4
/-- What is read: at `CP + v` and at `CP + 3`. -/
def d1 : Nat := exVar 5 + 348
def d2 : Nat := exVar 6 + 348

/-- `_read_dwepd` without moving the current player. -/
def body : Stmt := rdCore 0 (dwepdInits (p + 348) (q + 348)) (dwepdItems (p + 348) (q + 348))
def F : Emitted := emitD fend (fun _ _ _ _ _ _ => none) (.base body) 0 0 fend 3 0

/-- The trigger after the second read; the shared readers; the second read. -/
def B2 : Emitted := emitD retAt (fun _ _ _ _ _ _ => none) (.base (cpAddK (-3))) 0 0 haltAt 60 0
def rend : Nat := trigAt 70
def A (t : Nat) : Nat := trigAt (t + 71)
def r2 : Option (Nat × List Blk) := emitAsg (A ExRead.t2) 20 (cpOps rend B2.e (o3 + 348) (.const 3) none)
def n2 : Nat := (r2.getD (0, [])).1

/-- The first read. -/
def pb : Nat := trigAt 50 + 328
def pa : Nat := trigAt 51 + 328
def back : Nat := (emitD retAt (fun _ _ _ _ _ _ => none) (.base (cpSubV v t pb)) 0 0 n2 50 0).e
def c1 : Site := ⟨F.e, fend, nptr, back, body, [(p, o1 + 348), (q, o2 + 348)], []⟩
def ES1 : ES := .seq (.base (cpAddV v pa)) (.seq (.site 0) (.base (cpSubV v t pb)))
def M : Emitted := emitD retAt (fun _ => callS c1) ES1 0 0 n2 50 0

def L0 : Layout := ⟨⟨fendBlks [p, q] fend ++ F.blks ++ M.blks ++ B2.blks ++ rendBlk rend :: ExRead.tabBlks A rend 0 ExRead.T.trigs, M.seqs ++ (r2.getD (0, [])).2, (List.range 7).map exVar⟩, [], []⟩
def L : Layout := L0.pin []

def cp : W := epd d2 - 3
def vs (x y : W) : List W := [epd d1 - cp, 1, 2, 3, 4, x, y]
def holes : List (Nat × W) := [(cpAddr, cp)]
def mem (x y : W) : Mem := L0.mem exBuf (vs x y) (pinHoles [] ++ holes)

theorem laid (x y : W) : L0.Laid exBuf (vs x y) := Layout.laidB_spec (show L0.laidB exBuf 7 = true by decide +kernel)
theorem pins (x y : W) : L0.pinB exBuf (vs x y).length [] = true := show L0.pinB exBuf 7 [] = true by decide +kernel
theorem wf : L.Wf := (laid 0 0).pinWf (pins 0 0)
theorem ok (x y : W) : L.Ok (mem x y) := (laid x y).pinOk (pins x y) holes
theorem cell {x : Nat} (h : L0.pinCellB [] x = true) : L.cell x := (laid 0 0).pinCellB h
theorem cellN {x : Nat} (h : L0.pinCellB [] x = true) : ¬ L.priv x := (cell h).2

theorem noSite {r : Nat} : ∀ (j b k x n m : Nat) (E : Emitted), (fun (_ _ _ _ _ _ : Nat) => (none : Option Emitted)) j b k x n m = some E → E.Into L → Code L r b k .skip E.e x :=
  fun _ _ _ _ _ _ _ h => by cases h

theorem inF : F.Into L := .of_eq (s := []) (r := []) (fun x h => by simp only [L, Layout.pin, L0, List.mem_append]; exact Or.inl (Or.inl (Or.inl (Or.inr h)))) (by decide +kernel) (by simp) (by decide +kernel) (by simp)
theorem inB : B2.Into L := .of_eq (s := []) (r := []) (fun x h => by simp only [L, Layout.pin, L0, List.mem_append]; exact Or.inl (Or.inr h)) (by decide +kernel) (by simp) (by decide +kernel) (by simp)
theorem inM : M.Into L := .of_eq (s := M.seqs) (r := []) (fun x h => by simp only [L, Layout.pin, L0, List.mem_append]; exact Or.inl (Or.inl (Or.inr h))) rfl (fun _ h => List.mem_append_left _ h) (by decide +kernel) (by simp)

theorem f : FuncCode L F.e fend nptr [p, q] body := by
  refine ⟨⟨0, 0, emitD_code noSite (by decide +kernel) inF⟩, fendBlks_end (fun x h => ?_) (cell (by decide +kernel)) ?_ (by decide)⟩
  · simp only [L, Layout.pin, L0, List.mem_append]; exact Or.inl (Or.inl (Or.inl (Or.inl h)))
  · have h : ∀ v ∈ [p, q], L0.pinCellB [] (v + 4) = true ∧ v < 2 ^ 32 := by decide +kernel
    exact fun v hv => ⟨cell (h v hv).1, (h v hv).2⟩

theorem code1 : Code L retAt 0 0 (rdCpCall (cpAddV v pa) (c1.stmt L) (cpSubV v t pb)) M.e n2 := by
  refine emitD_code (S := fun _ => callS c1) (f := fun _ => c1.stmt L) (es := ES1) (n := 50) (m := 0) ?_ (by decide +kernel) inM
  intro j b k x n m E h hi
  exact callS_code (c := c1) wf f (by decide +kernel) h hi

theorem tab : RdTab L ExRead.T A rend := by
  have hc : ∀ x ∈ [rend + 4, rend + 344, rend + 348, cpAddr], L0.pinCellB [] x = true := by decide +kernel
  refine ⟨fun t r h => ?_, ?_, cell (hc _ (by simp)), cell (hc _ (by simp)), cell (hc _ (by simp)), cell (hc _ (by simp)), by decide⟩
  · have := ExRead.tabBlks_mem (A := A) (rend := rend) (k := 0) h
    rw [Nat.zero_add] at this
    exact List.mem_append_right _ (List.mem_cons_of_mem _ this)
  · exact List.mem_append_right _ (List.mem_cons_self ..)

theorem reader2 : Reader L rend (A ExRead.t2) 0x7FF000 (-12) := Reader.of (q := ExRead.q2) wf (ExRead.base ++ [ExRead.q1]) [] (by decide) ExRead.req2 tab

theorem ok2 : RdCpOk L rend (o3 + 348) (.const 3) := ⟨by decide, cell (by decide +kernel), by decide +kernel, by decide +kernel, fun _ h => by cases h⟩

theorem code2 : Code L retAt 0 0 (.seq (.prim (CpRdRel L rend B2.e (o3 + 348) 0x7FF000 (-12) (.const 3) none)) (cpAddK (-3))) n2 haltAt :=
  .seq (C32_cp_code wf tab reader2 ok2 (by decide +kernel)
    (emitAsg_code (ExRead.some_getD (show r2.isSome = true by decide +kernel) _) (fun _ hb => List.mem_append_right _ hb) retAt 0 0))
    (emitD_code noSite (es := .base (cpAddK (-3))) (n := 60) (m := 0) (by decide +kernel) inB)

theorem cCp : L.cell cpAddr := cell (by decide +kernel)
theorem vars : ∀ v ∈ (List.range 7).map exVar, v ∈ L.P.vars := fun _ h => h

theorem ed1 : epdAddr (cp + (epd d1 - cp)) = d1 := by decide +kernel
theorem ed2 : epdAddr (cp + 3) = d2 := by decide +kernel

theorem run (x y : W) : ∃ m', Reaches ⟨mem x y, M.e⟩ ⟨m', haltAt⟩ ∧ m' (o1 + 348) = x ∧ m' (o2 + 348) = epd x.toNat ∧ (m' (o3 + 348)).toNat = y.toNat / 2 ^ 12 % 2 ^ 11 ∧ m' cpAddr = cp := by
  have hl := laid x y
  have hcd : ∀ y ∈ [v + 348, d1, d2, o1 + 348, o2 + 348, o3 + 348, cpAddr, rend + 348], L0.pinCellB [] y = true := by decide +kernel
  have hc : ∀ y ∈ [v + 348, d1, d2, o1 + 348, o2 + 348, o3 + 348, cpAddr, rend + 348], ∀ m, L.view m y = m y := fun y hy m => Layout.view_at (cellN (hcd y hy))
  have icp : L.view (mem x y) cpAddr = cp := by rw [hc _ (by simp)]; exact (hl.free (show L0.Free exBuf 7 cpAddr by decide +kernel) (by decide) _).trans (by decide +kernel)
  have iv : L.view (mem x y) (v + 348) = epd d1 - cp := by rw [hc _ (by simp)]; exact (hl.ok _).2 0 (by simp [vs])
  have i1 : L.view (mem x y) d1 = x := by rw [hc _ (by simp)]; exact (hl.ok _).2 5 (by simp [vs])
  have i2 : L.view (mem x y) d2 = y := by rw [hc _ (by simp)]; exact (hl.ok _).2 6 (by simp [vs])
  have ir : L.view (mem x y) (rend + 348) = 0 := by
    rw [hc _ (by simp)]
    have := (hl.hole (show rendBlk rend ∈ L0.P.blks from List.mem_append_right _ (List.mem_cons_self ..)) (o := 348) (by decide) (by decide +kernel) (by decide) (pinHoles [] ++ holes)).2
    exact this.trans (by decide +kernel)
  obtain ⟨s1, x1, e1, e2, e3, k1⟩ := C32_dwepdread_cp (s := L.view (mem x y)) (o1 := o1 + 348) (o2 := o2 + 348) (back := back) (scr := [pa + 20, t + 348, pb + 20]) wf cCp
    ⟨cell (by decide +kernel), cell (by decide +kernel)⟩ (by decide) (by decide) (callOkB_spec (fun _ => cell) vars (by decide +kernel)) f (by decide +kernel)
    ((AddsCp.var cCp (v := v) (p := pa) (vars _ (by decide)) (cell (by decide +kernel)) (by decide)).mono (by simp))
    ((AddsCp.neg cCp (v := v) (t := t) (p := pb) ⟨vars _ (by decide), vars _ (by decide)⟩ (cell (by decide +kernel)) (by decide) (cell (by decide +kernel)) (by decide)).mono (by simp))
    (fun s' h => by rw [h _ (by decide +kernel)]) (by decide +kernel) (by decide +kernel)
    (by simp only [icp, iv, ed1]; exact cellN (by decide +kernel)) (by simp only [icp, iv, ed1]; decide +kernel)
  simp only [icp, iv, ed1, i1] at e1 e2 e3
  have h2 : s1 d2 = y := by rw [k1 _ (by decide +kernel), i2]
  have hr : s1 (rend + 348) = 0 := by rw [k1 _ (by decide +kernel), ir]
  obtain ⟨s2, x2, g1, g2, -, k2⟩ := C32_cp (s := s1) (o := o3 + 348) (nxt := B2.e) (mask := 0x7FF000) (sh := -12) (init := none) ok2 (AddsCp.const cCp (-3)) (fun s' h => by simp [Src.valM])
    (by decide) (by simp only [Src.valM, e3, ed2]; exact cellN (by decide +kernel)) (by simp only [Src.valM, e3, ed2]; decide +kernel)
  simp only [Src.valM, e3, ed2, h2, hr, Option.getD_none] at g1 g2
  obtain ⟨m', rr, -, hv⟩ := ((C25_structured wf x1 code1).trans (C25_structured wf x2 code2)) _ (ok x y) rfl
  have hm : ∀ y ∈ [v + 348, d1, d2, o1 + 348, o2 + 348, o3 + 348, cpAddr, rend + 348], m' y = s2 y := fun y hy => by rw [← hv, hc y hy]
  refine ⟨m', rr, ?_, ?_, ?_, ?_⟩
  · rw [hm _ (by simp), k2 _ (by decide +kernel), e1]
  · rw [hm _ (by simp), k2 _ (by decide +kernel), e2]
  · rw [hm _ (by simp), g1]
    have : y.toNat &&& 0x7FF000 = y.toNat / 2 ^ 12 % 2 ^ 11 * 2 ^ 12 := by
      have := and_run y.toNat 12 11
      rw [show 2 ^ (12 + 11) - 2 ^ 12 = 0x7FF000 from by decide] at this
      exact this
    simp only [readVal, this, shl]
    rw [if_neg (by decide), show (-(-12 : Int)).toNat = 12 from rfl, Nat.mul_div_cancel _ (by decide)]
    simp only [BitVec.ofNat_eq_ofNat, BitVec.zero_add, BitVec.toNat_ofNat]
    omega
  · rw [hm _ (by simp), g2]

end ExMemReadCp
end Eud.SC
