import Verif.Machine.Pin
import Verif.Lib.Read
/-
Examples for C32 and C33: two reads that share readers, in memory.
-/

namespace Eud.SC

namespace ExRead

/-- The cache of the current player. -/
def cpc : Nat := 0xE000000
/-- `read_end_common` -/
def rend : Nat := trigAt 0
def A (t : Nat) : Nat := trigAt (t + 1)

/-- readtable.py:199-206, followed by requests of a map for a byte and for a pattern of 11 bits. -/
def base : List RReq := [.insert 0xFFFFFFFF 0 (some true), .insert 0xFFFFFF00 0 (some false), .get 0xFF 0, .insert 0xFF00 (-8) (some true),
  .insert 0xFF0000 (-16) (some true), .insert 0xFF000000 (-24) (some true)]
def q1 : RReq := .get 0xFFFFFFFF 0
def q2 : RReq := .insertOrGet 0x7FF000 (-12) none

def T : RT := RT.run RT.empty (base ++ [q1, q2])
def t1 : Nat := (((RT.run RT.empty base).req q1).map Prod.snd).getD 0
def t2 : Nat := (((RT.run RT.empty (base ++ [q1])).req q2).map Prod.snd).getD 0

def e : Nat := exVar 0
def o1 : Nat := exVar 1
def o2 : Nat := exVar 2
def d : Nat := exVar 3 + 348

/-- The second read, and the first one, which goes on there. -/
def r2 : Option (Nat × List Blk) := emitAsg (A t2) 20 (epdOps rend cpc haltAt (o2 + 348) (.const (epd d)) none)
def n2 : Nat := (r2.getD (0, [])).1
def r1 : Option (Nat × List Blk) := emitAsg (A t1) 0 (epdOps rend cpc n2 (o1 + 348) (.var e) none)
def entry : Nat := (r1.getD (0, [])).1

/-- The triggers of the table. -/
def tabBlks (A : Nat → Nat) (rend : Nat) : Nat → List RTrig → List SBlk
  | _, [] => []
  | t, r :: l => rtBlk A rend t r :: tabBlks A rend (t + 1) l

theorem tabBlks_mem {A : Nat → Nat} {rend : Nat} : ∀ {l : List RTrig} {k t : Nat} {r : RTrig}, l[t]? = some r → rtBlk A rend (k + t) r ∈ tabBlks A rend k l
  | [], _, _, _, h => by simp at h
  | a :: l, k, 0, r, h => by
    simp only [List.getElem?_cons_zero, Option.some.injEq] at h
    rw [h]; simp [tabBlks]
  | a :: l, k, t + 1, r, h => by
    have := tabBlks_mem (A := A) (rend := rend) (l := l) (k := k + 1) (t := t) (r := r) (by simpa using h)
    rw [show k + (t + 1) = k + 1 + t from by omega]
    exact List.mem_cons_of_mem _ this

def L0 : Layout := ⟨⟨rendBlk rend :: tabBlks A rend 0 T.trigs, (r1.getD (0, [])).2 ++ (r2.getD (0, [])).2, (List.range 4).map exVar⟩, [], []⟩
def X : List (Nat × Nat) := pvPins cpc
def L : Layout := L0.pin X

/-- The EPD of `d`, old results, and the dword that is read. -/
def vs (x : W) : List W := [epd d, 7, 7, x]
/-- The cached player is 5. -/
def holes : List (Nat × W) := [(cpc + 348, 5), (cpc + 352, pmod .set)]
def mem (x : W) : Mem := L0.mem exBuf (vs x) (pinHoles X ++ holes)

theorem laid (x : W) : L0.Laid exBuf (vs x) := Layout.laidB_spec (show L0.laidB exBuf 4 = true by decide +kernel)
theorem pins (x : W) : L0.pinB exBuf (vs x).length X = true := show L0.pinB exBuf 4 X = true by decide +kernel
theorem wf : L.Wf := (laid 0).pinWf (pins 0)
theorem ok (x : W) : L.Ok (mem x) := (laid x).pinOk (pins x) holes

theorem pv : PVar L cpc := PVar.pin (laid 0) (fun _ h => h) (by decide +kernel)

theorem blkCell {x : Nat} (h : L0.cellB x = true) (hX : ∀ r ∈ X, x ≠ r.1 + 4) : L.cell x := Layout.pin_cell ((laid 0).cellB h) hX

theorem tab : RdTab L T A rend := by
  have hc : ∀ x ∈ [rend + 4, rend + 344, rend + 348, cpAddr], L0.cellB x = true ∧ ∀ r ∈ X, x ≠ r.1 + 4 := by decide +kernel
  have hc' : ∀ x ∈ [rend + 4, rend + 344, rend + 348, cpAddr], L.cell x := fun x hx => blkCell (hc x hx).1 (hc x hx).2
  refine ⟨fun t r h => ?_, List.mem_cons_self .., hc' _ (by simp), hc' _ (by simp), hc' _ (by simp), hc' _ (by simp), by decide⟩
  have := tabBlks_mem (A := A) (rend := rend) (k := 0) h
  rw [Nat.zero_add] at this
  exact List.mem_cons_of_mem _ this

theorem some_getD {α : Type} {o : Option (α × β)} (h : o.isSome = true) (x : α × β) : o = some ((o.getD x).1, (o.getD x).2) := by
  obtain ⟨y, rfl⟩ := Option.isSome_iff_exists.1 h
  rfl

theorem req1 : (RT.run RT.empty base).req q1 = some (RT.run RT.empty base, t1) := by decide +kernel
theorem req2 : ((RT.run RT.empty (base ++ [q1])).req q2) = some (T, t2) := by decide +kernel

/-- Both readers, whatever was asked for in between. -/
theorem reader1 : Reader L rend (A t1) 0xFFFFFFFF 0 :=
  Reader.of (q := q1) wf base [q2] (by decide) req1 (by rw [show (RT.run RT.empty base).run [q2] = T from by decide +kernel]; exact tab)
theorem reader2 : Reader L rend (A t2) 0x7FF000 (-12) := Reader.of (q := q2) wf (base ++ [q1]) [] (by decide) req2 tab

theorem ok1 : RdOk L rend cpc (o1 + 348) (.var e) := by
  refine ⟨pv, by decide +kernel, blkCell (by decide +kernel) (by decide +kernel), by decide, by decide +kernel, by decide +kernel, by decide, ?_⟩
  intro v hv
  cases hv
  exact ⟨(laid 0).exVars (i := 0) (by decide), by decide +kernel⟩
theorem ok2 : RdOk L rend cpc (o2 + 348) (.const (epd d)) :=
  ⟨pv, by decide +kernel, blkCell (by decide +kernel) (by decide +kernel), by decide, by decide +kernel, by decide +kernel, by decide, fun _ h => by cases h⟩

theorem asg1 : Code L retAt 0 0 (.asg (epdOps rend cpc n2 (o1 + 348) (.var e) none)) entry (A t1) := by
  have hs : r1.isSome = true := by decide +kernel
  have h : r1 = some (entry, (r1.getD (0, [])).2) := some_getD hs (0, [])
  unfold r1 at h
  refine emitAsg_code h ?_ retAt 0 0
  intro b hb
  exact List.mem_append_left _ hb
theorem n2_lt : n2 < 2 ^ 32 := by decide +kernel
theorem code1 : Code L retAt 0 0 (.prim (EpdRel L rend cpc n2 (o1 + 348) 0xFFFFFFFF 0 (.var e) none)) entry n2 :=
  C32_epd_code wf tab reader1 ok1 n2_lt asg1
theorem code2 : Code L retAt 0 0 (.prim (EpdRel L rend cpc haltAt (o2 + 348) 0x7FF000 (-12) (.const (epd d)) none)) n2 haltAt :=
  C32_epd_code wf tab reader2 ok2 (by decide)
    (emitAsg_code (some_getD (show r2.isSome = true by decide +kernel) _) (fun _ hb => List.mem_append_right _ hb) retAt 0 0)

theorem ed : epdAddr (epd d) = d := by decide +kernel

/-- The machine reads the dword, then bits 12 to 22 of it, and restores the cached current player. -/
theorem run (x : W) : ∃ m', Reaches ⟨mem x, entry⟩ ⟨m', haltAt⟩ ∧ m' (o1 + 348) = x ∧ (m' (o2 + 348)).toNat = x.toNat / 2 ^ 12 % 2 ^ 11 ∧ m' cpAddr = 5 ∧ m' d = x := by
  have hw := wf
  have hok := ok x
  have hl := laid x
  have hv : ∀ y, ¬ L.priv y → L.view (mem x) y = mem x y := fun y h => Layout.view_at h
  have hno : ∀ y ∈ [d, o1 + 348, o2 + 348, e + 348, cpc + 348, cpc + 352, cpAddr, rend + 348], L0.cellB y = true ∧ ∀ r ∈ X, y ≠ r.1 + 4 := by decide +kernel
  have hc : ∀ y ∈ [d, o1 + 348, o2 + 348, e + 348, cpc + 348, cpc + 352, cpAddr, rend + 348], L.cell y := fun y hy => blkCell (hno y hy).1 (hno y hy).2
  have fr : ∀ y ∈ [cpc + 348, cpc + 352], L0.Free exBuf 4 y := by decide +kernel
  have i352 : L.view (mem x) (cpc + 352) = pmod .set := by
    rw [hv _ (hc _ (by simp)).2]
    exact (hl.free (fr _ (by simp)) (by decide) _).trans (by decide +kernel)
  have i348 : L.view (mem x) (cpc + 348) = 5 := by
    rw [hv _ (hc _ (by simp)).2]
    exact (hl.free (fr _ (by simp)) (by decide) _).trans (by decide +kernel)
  have ie : L.view (mem x) (e + 348) = epd d := by rw [hv _ (hc _ (by simp)).2]; exact (hl.ok _).2 0 (by simp [vs])
  have id' : L.view (mem x) d = x := by rw [hv _ (hc _ (by simp)).2]; exact (hl.ok _).2 3 (by simp [vs])
  have ir : L.view (mem x) (rend + 348) = 0 := by
    rw [hv _ (hc _ (by simp)).2]
    have := (hl.hole (show rendBlk rend ∈ L0.P.blks from List.mem_cons_self ..) (o := 348) (by decide) (by decide +kernel) (by decide) (pinHoles X ++ holes)).2
    exact this.trans (by decide +kernel)
  have hdn : d ∉ rdScr rend cpc := by decide +kernel
  obtain ⟨s1, x1, e1, -, z1, f1⟩ := (C32_epd (mask := 0xFFFFFFFF) (sh := 0) (nxt := n2) (init := none) ok1 (s := L.view (mem x)) i352
    (by simp only [Src.valM, ie, ed]; exact (hc d (by simp)).2) (by simp only [Src.valM, ie, ed]; exact hdn))
  simp only [Src.valM, ie, ed, id', Option.getD_none, ir, C32_dword] at e1
  have g352 : s1 (cpc + 352) = pmod .set := by rw [f1 _ (by decide +kernel), i352]
  have g348 : s1 (cpc + 348) = 5 := by rw [f1 _ (by decide +kernel), i348]
  have gd : s1 d = x := by rw [f1 _ (by decide +kernel), id']
  obtain ⟨s2, x2, e2, c2, -, f2⟩ := (C32_epd (mask := 0x7FF000) (sh := -12) (nxt := haltAt) (init := none) ok2 (s := s1) g352
    (by simp only [Src.valM, ed]; exact (hc d (by simp)).2) (by simp only [Src.valM, ed]; exact hdn))
  simp only [Src.valM, ed, gd, Option.getD_none, z1] at e2
  have hr := (C25_structured hw x1 code1).trans (C25_structured hw x2 code2)
  obtain ⟨m', rr, ok', hv'⟩ := hr _ hok rfl
  have hm : ∀ y ∈ [d, o1 + 348, o2 + 348, e + 348, cpc + 348, cpc + 352, cpAddr, rend + 348], m' y = s2 y := fun y hy => by
    rw [← hv', Layout.view_at (hc y hy).2]
  refine ⟨m', rr, ?_, ?_, ?_, ?_⟩
  · rw [hm _ (by simp), f2 _ (by decide +kernel), e1]; simp
  · rw [hm _ (by simp), e2]
    have : x.toNat &&& 0x7FF000 = x.toNat / 2 ^ 12 % 2 ^ 11 * 2 ^ 12 := by
      have := and_run x.toNat 12 11
      rw [show 2 ^ (12 + 11) - 2 ^ 12 = 0x7FF000 from by decide] at this
      exact this
    simp only [readVal, this, shl]
    rw [if_neg (by decide), show (-(-12 : Int)).toNat = 12 from rfl, Nat.mul_div_cancel _ (by decide)]
    simp only [BitVec.ofNat_eq_ofNat, BitVec.zero_add, BitVec.toNat_ofNat]
    omega
  · rw [hm _ (by simp), c2, g348]
  · rw [hm _ (by simp), f2 _ (by decide +kernel), gd]

end ExRead

end Eud.SC
