import Verif.Ex.Print
/-
Example for C58: `f_dbstr_print(x, "score: ", n, "core", hptr(n), ptr2s(y))` in memory, for all numbers, all strings and all alignments that fit. The second literal is a part of the first one and shares its data.
-/

namespace Eud.SC

namespace ExPrint

open ExRepMov (T)
open ExByteRw (rend A cpc wv tbl br D R RM WM G noS L00 sR sW sB readS wcS notInt farInt farEpd byte_far posB_eq)

/-- What the places of the program stand for. -/
def tF (L : Layout) (j : Nat) : Stmt := match j with | 0 => (BOp.read 0 (TL.b + 348)).stmt L G TL.k1 | _ => (BOp.writeV 0 (.var TL.b)).stmt L G TL.k2

theorem cT : Code L TL.fe 0 0 (TL.main L G) (trigAt 312) TL.fe := by
  rw [show TL.main L G = esT.stmt (tF L) from rfl, show trigAt 312 = eT.e by decide +kernel]
  refine emitD_code (S := tS) (es := esT) ?_ (by decide +kernel) ⟨bp 34 rfl, sp 12 rfl, fun r h => List.mem_append_left _ (List.mem_cons_of_mem _ (List.mem_append_right _ h))⟩
  intro j b k x n m E h hi
  match j with
  | 0 => exact readS_code (by decide) (cell (by decide +kernel)) (by decide) (by decide +kernel) h hi
  | _ + 1 => exact sB_code h hi

theorem tok : TL.Ok L G where
  r := by decide
  w := by decide
  vb := varU (by decide +kernel) (by decide +kernel) (by decide)
  cel := fun y h => cell ((show ∀ y ∈ TL.dws, cellQ y = true by decide +kernel) y h)
  lt := by decide
  int := fun y h => notInt ((show ∀ y ∈ TL.dws, G.ints.contains y = false by decide +kernel) y h)
  nd := by decide +kernel
  inj := show ∀ i < 4, ∀ j < 4, R.cs i = R.cs j → i = j by decide +kernel

/-- The dwords of the subroutines. -/
def scrL : List Nat := P.dws ++ (H.dws ++ (S.dws ++ (TL.dws ++ [ret + 348])))
theorem scr_mem {y : Nat} (h : C.scr y) : y ∈ scrL := by
  simp only [scrL, List.mem_append, List.mem_singleton]
  rcases h with h | h | h | h | h
  · exact .inl (DecPr.mem_dws.2 h)
  · exact .inr (.inl h)
  · exact .inr (.inr (.inl h))
  · exact .inr (.inr (.inr (.inl h)))
  · exact .inr (.inr (.inr (.inr h)))
theorem scr_far {z : Nat} (h1 : 0x7000000 ≤ z) (h2 : z < 0x7F00000) : ¬ C.scr z := fun hx => by
  have := (show ∀ z ∈ scrL, z < 0x7000000 ∨ 0x7F00000 ≤ z by decide +kernel) z (scr_mem hx)
  omega
theorem not_all {y : Nat} (h : y ∉ P.dws) : ¬ P.all y := fun e => h (DecPr.mem_dws.2 e)

theorem cok : C.Ok L G where
  d := pok
  h := hok
  s := sok
  t := tok
  w := by decide
  r := ⟨vars _ (by decide +kernel), by decide, notInt (by decide +kernel)⟩
  rs := ⟨not_all (by decide +kernel), by decide +kernel, by decide +kernel, by decide +kernel⟩
  ds := ⟨by decide +kernel, by decide +kernel, by decide +kernel⟩
  ss := fun y h => by
    have := (show ∀ y ∈ [S.fe + 348, S.jump + 4], y ∉ P.dws ∧ y ∉ H.dws ∧ y ∉ TL.dws by decide +kernel) y h
    exact ⟨not_all this.1, this.2⟩
  ts := ⟨not_all (by decide +kernel), by decide +kernel, by decide +kernel⟩

/-- The things and their texts. -/
def ps (nv : BitVec 32) (l : List (BitVec 8)) : List (PItem × List (BitVec 8)) :=
  [(.lit at1 a1 0xABCD012D 0x123456B4 (seqAt 106), lit1), (.dec (.var n) (seqAt 105), decimal nv.toNat), (.lit at2 a2 0xABCD012D 0x123456B4 (seqAt 104), lit2), (.hex (.var n) (seqAt 103), hex8 nv.toNat),
   (.strV y (seqAt 102) (seqAt 101), l)]

def lF (L : Layout) (j : Nat) : Stmt := match j with
  | 0 => (BOp.wseekV 0 (.var x)).stmt L G (seqAt 107)
  | 1 => TL.sub L G at1 a1 0xABCD012D 0x123456B4 (seqAt 106)
  | 2 => P.sub L G ret (.var n) (seqAt 105)
  | 3 => TL.sub L G at2 a2 0xABCD012D 0x123456B4 (seqAt 104)
  | 4 => H.sub L G ret (.var n) (seqAt 103)
  | 5 => (BOp.rseekV 0 (.var y)).stmt L G (seqAt 102)
  | 6 => S.sub L G ret (seqAt 101)
  | _ => (BOp.writeC 0 0).stmt L G haltAt

theorem codeL (nv : BitVec 32) (l : List (BitVec 8)) : Code L retAt 0 0 (C.print L G (.var x) (ps nv l) true (seqAt 107) haltAt) (seqAt 109) haltAt := by
  rw [show C.print L G (.var x) (ps nv l) true (seqAt 107) haltAt = esL.stmt (lF L) from rfl, show seqAt 109 = eL.e by decide +kernel]
  refine emitD_code (S := lS) (es := esL) ?_ (by decide +kernel) (into 35 rfl (.inr ⟨13, rfl⟩) (by decide +kernel))
  intro j b k x' n' m E h hi
  match j with
  | 0 => exact callS_code (c := sW L (seqAt 107) x) wf fW (by intro r h; cases h) h hi
  | 1 => exact subS_code (fs := trigAt 312) (fe := TL.fe) (gs := gL at1 a1 (seqAt 106)) (body := TL.main L G) (as := TL.fin) ⟨_, _, _, cT⟩ 33 ⟨_, rfl, by simp⟩ (by decide +kernel) (by decide +kernel) (by decide) h hi
  | 2 => exact subS_code (fs := seqAt 69) (fe := P.fe) (gs := gD (seqAt 105)) (body := P.lev L G 9) (as := P.fin) ⟨_, _, _, cP⟩ 20 ⟨_, rfl, by simp⟩ (by decide +kernel) (by decide +kernel) (by decide) h hi
  | 3 => exact subS_code (fs := trigAt 312) (fe := TL.fe) (gs := gL at2 a2 (seqAt 104)) (body := TL.main L G) (as := TL.fin) ⟨_, _, _, cT⟩ 33 ⟨_, rfl, by simp⟩ (by decide +kernel) (by decide +kernel) (by decide) h hi
  | 4 => exact subS_code (fs := seqAt 85) (fe := H.fe) (gs := gH (seqAt 103)) (body := H.body L G) (as := []) ⟨_, _, _, cH⟩ 22 ⟨_, rfl, by simp⟩ (by decide +kernel) (by decide +kernel) (by decide) h hi
  | 5 => exact callS_code (c := sR L (seqAt 102) y) wf fR (by intro r h; cases h) h hi
  | 6 => exact subS_code (fs := trigAt 292) (fe := S.fe) (gs := gS (seqAt 101)) (body := .prim (StrPr.Loop L G S)) (as := S.fin) ⟨_, _, _, cS⟩ 24 ⟨_, rfl, by simp⟩ (by decide +kernel) (by decide +kernel) (by decide) h hi
  | _ + 7 => exact wcS_code (by decide) h hi

/-- The data of the literals in memory is what `find_or_add` makes, and the places are those it gives. -/
theorem lits_ok : lits = ([0x57, 0x4D, 0x12, 0x05, 0x18, 0x14, 0x04], [at1 - dat, at2 - dat]) := by decide +kernel

theorem dat_bytes {s : Mem} (h1 : s dat = 0x05124D57) (h2 : s (dat + 4) = 0x00041418) : ∀ i (h : i < lits.1.length), byteAt s (dat + i) = lits.1[i] := by
  have e : lits.1 = [0x57, 0x4D, 0x12, 0x05, 0x18, 0x14, 0x04] := by rw [lits_ok]
  intro i h
  simp only [e] at h ⊢
  have : i = 0 ∨ i = 1 ∨ i = 2 ∨ i = 3 ∨ i = 4 ∨ i = 5 ∨ i = 6 := by simp only [List.length_cons, List.length_nil] at h; omega
  rcases this with rfl | rfl | rfl | rfl | rfl | rfl | rfl
  · rw [byteAt, show (dat + 0) / 4 * 4 = dat by decide, h1]; rfl
  · rw [byteAt, show (dat + 1) / 4 * 4 = dat by decide, h1]; rfl
  · rw [byteAt, show (dat + 2) / 4 * 4 = dat by decide, h1]; rfl
  · rw [byteAt, show (dat + 3) / 4 * 4 = dat by decide, h1]; rfl
  · rw [byteAt, show (dat + 4) / 4 * 4 = dat + 4 by decide, h2]; rfl
  · rw [byteAt, show (dat + 5) / 4 * 4 = dat + 4 by decide, h2]; rfl
  · rw [byteAt, show (dat + 6) / 4 * 4 = dat + 4 by decide, h2]; rfl

theorem lit_rev {s : Mem} (h1 : s dat = 0x05124D57) (h2 : s (dat + 4) = 0x00041418) : LitPr.RevAt s at1 key lit1 ∧ LitPr.RevAt s at2 key lit2 := by
  obtain ⟨-, k⟩ := C58_data key [lit1, lit2] [] (by simp [lit1, lit2])
  have e : lits.2 = [6, 5] := by rw [lits_ok]; decide
  have hd := dat_bytes h1 h2
  obtain ⟨p1, q1, r1⟩ := k 0 (by simp)
  obtain ⟨p2, q2, r2⟩ := k 1 (by simp)
  rw [show findAll key [] [lit1, lit2] = lits from rfl] at q1 r1 q2 r2
  rw [e] at q1 q2
  cases q1
  cases q2
  exact ⟨LitPr.RevAt.of_data (base := dat) (by decide) hd r1, LitPr.RevAt.of_data (base := dat) (by decide) hd r2⟩

theorem dat_cell {z : Nat} (h : z ∈ [dat, dat + 4]) : ¬ L.priv z ∧ ¬ G.Int z ∧ ¬ C.scr z := by
  have := (show ∀ z ∈ [dat, dat + 4], cellQ z = true ∧ G.ints.contains z = false ∧ z ∉ scrL by decide +kernel) z h
  exact ⟨(cell this.1).2, notInt this.2.1, fun e => this.2.2 (scr_mem e)⟩

theorem dat_read {a k : Nat} (h : a = at1 ∨ a = at2) (hk : k < (if a = at1 then 7 else 4)) : (a - k) / 4 * 4 ∈ [dat, dat + 4] ∧ 0x7F00000 ≤ a - k := by
  have e1 : ∀ k < 7, (at1 - k) / 4 * 4 ∈ [dat, dat + 4] ∧ 0x7F00000 ≤ at1 - k := by decide
  have e2 : ∀ k < 4, (at2 - k) / 4 * 4 ∈ [dat, dat + 4] ∧ 0x7F00000 ≤ at2 - k := by decide
  rcases h with rfl | rfl
  · exact e1 k hk
  · exact e2 k hk

/-- **Example for C58**: the text stands at `x`, the rest of the memory of the game stays, `ret` is its end, the current player is as before. -/
theorem runL (u : List (Nat × BitVec 32)) (hu : ∀ r ∈ u, 0x7000000 ≤ r.1 ∧ r.1 < 0x7F00000) (xv yv nv : BitVec 32) (l t : List (BitVec 8)) (hl : StrAt (mem u xv yv nv) yv.toNat l)
    (ht : t = lit1 ++ (decimal nv.toNat ++ (lit2 ++ (hex8 nv.toNat ++ l)))) (hx : 0x7000000 ≤ xv.toNat) (hxt : xv.toNat + t.length < 0x7F00000) (hy : 0x7000000 ≤ yv.toNat) (hyl : yv.toNat + l.length < 0x7F00000)
    (hov : yv.toNat + l.length < xv.toNat ∨ xv.toNat + t.length < yv.toNat) :
    ∃ m', Reaches ⟨mem u xv yv nv, seqAt 109⟩ ⟨m', haltAt⟩ ∧ (∀ i (h : i < t.length), byteAt m' (xv.toNat + i) = t[i]) ∧ byteAt m' (xv.toNat + t.length) = 0 ∧
      (∀ q, 0x7000000 ≤ q → q < 0x7F00000 → (q < xv.toNat ∨ xv.toNat + t.length < q) → byteAt m' q = byteAt (mem u xv yv nv) q) ∧ (m' (ret + 348)).toNat = xv.toNat + t.length ∧ m' cpAddr = 5 := by
  obtain ⟨h0, vv, i1, i2, i3, i4, i5, i6⟩ := init u hu xv yv nv
  have e3 : L.view (mem u xv yv nv) (x + 348) = xv := vv 3 (by decide)
  have e4 : L.view (mem u xv yv nv) (y + 348) = yv := vv 4 (by decide)
  have e5 : L.view (mem u xv yv nv) (n + 348) = nv := vv 5 (by decide)
  have hb : ∀ q, 0x7000000 ≤ q → q < 0x7F00000 → byteAt (L.view (mem u xv yv nv)) q = byteAt (mem u xv yv nv) q := fun q => byte_far fun z h1 h2 => view_far _ h1 h2
  generalize hs : L.view (mem u xv yv nv) = s at *
  have htx : PrintCfg.text (ps nv l) = t := by rw [ht]; simp [PrintCfg.text, ps]
  have hl2 : StrAt s yv.toNat l := by
    refine StrAt.congr (by omega) (fun k hk => ?_) hl
    rw [posB_eq (by omega), hb _ (by omega) (by omega)]
  obtain ⟨r1, r2⟩ := lit_rev i5 i6
  have hv : ∀ v ∈ [x, y, n], v ∈ L.P.vars ∧ ¬ G.Int (v + 348) ∧ ¬ C.scr (v + 348) ∧ v + 348 < 0x6FFFFF0 := fun v h => by
    have := (show ∀ v ∈ [x, y, n], v ∈ (List.range 58).map exVar ∧ G.ints.contains (v + 348) = false ∧ v + 348 ∉ scrL ∧ v + 348 < 0x6FFFFF0 by decide +kernel) v h
    exact ⟨vars _ this.1, notInt this.2.1, fun e => this.2.2.1 (scr_mem e), this.2.2.2⟩
  have hfit : C.Fits L G s xv.toNat (t.length + 1) (ps nv l) := by
    refine ⟨?_, ?_, ?_, ?_⟩
    · intro p hp
      simp only [ps, List.mem_cons, List.not_mem_nil, or_false] at hp
      rcases hp with rfl | rfl | rfl | rfl | rfl <;> simp only [PrintCfg.Lab] <;> decide
    · intro p hp v hsv
      have : v ∈ [x, y, n] := by
        simp only [ps, List.mem_cons, List.not_mem_nil, or_false] at hp
        rcases hp with rfl | rfl | rfl | rfl | rfl <;> simp only [PrintCfg.src] at hsv <;> cases hsv <;> simp
      obtain ⟨c1, c2, c3, c4⟩ := hv v this
      refine ⟨c1, c2, c3, fun i hi => ?_⟩
      rw [posB_eq (by omega)]
      omega
    · intro p hp
      simp only [ps, List.mem_cons, List.not_mem_nil, or_false] at hp
      rcases hp with rfl | rfl | rfl | rfl | rfl
      · exact ⟨r1, by decide, by decide, by decide, by decide, by unfold CountOk; decide⟩
      · show _ = _; rw [valM_var, e5]
      · exact ⟨r2, by decide, by decide, by decide, by decide, by unfold CountOk; decide⟩
      · show _ = _; rw [valM_var, e5]
      · show StrAt s (s (y + 348)).toNat l
        rw [e4]; exact hl2
    · intro p hp z hz
      simp only [ps, List.mem_cons, List.not_mem_nil, or_false] at hp
      rcases hp with rfl | rfl | rfl | rfl | rfl
      · obtain ⟨k, hk, rfl⟩ := hz
        obtain ⟨d1, d2⟩ := dat_read (a := at1) (k := k) (.inl rfl) hk
        obtain ⟨c1, c2, c3⟩ := dat_cell d1
        exact ⟨c1, c2, c3, fun i hi => by rw [posB_eq (by omega)]; omega⟩
      · exact hz.elim
      · obtain ⟨k, hk, rfl⟩ := hz
        obtain ⟨d1, d2⟩ := dat_read (a := at2) (k := k) (.inr rfl) hk
        obtain ⟨c1, c2, c3⟩ := dat_cell d1
        exact ⟨c1, c2, c3, fun i hi => by rw [posB_eq (by omega)]; omega⟩
      · exact hz.elim
      · obtain ⟨k, hk, rfl⟩ := hz
        simp only at hk
        rw [e4, posB_eq (by omega)]
        exact ⟨(far (by omega) (by omega)).2, farInt (by omega) (by omega), scr_far (by omega) (by omega), fun i hi => by rw [posB_eq (by omega)]; omega⟩
  have hroom : Room L G C.scr xv.toNat (t.length + 1) := fun i hi => by
    rw [posB_eq (by omega)]
    exact ⟨farEpd (by omega) (by omega) (by omega), far (by omega) (by omega), farInt (by omega) (by omega), scr_far (by omega) (by omega)⟩
  have hd := PrintCfg.C58_print (C := C) gok cok (dst := .var x) (ps := ps nv l) (eos := true) (k1 := seqAt 107) (k2 := haltAt) (by decide) (fun v e => by cases e; exact ⟨(hv x (by simp)).1, (hv x (by simp)).2.1⟩) (by decide) h0
    ⟨i1, i2, i3, i4⟩ (by rw [htx]; omega) (by rw [htx, valM_var, e3]; exact hroom) (by rw [htx, valM_var, e3]; exact hfit)
  rw [htx, valM_var, e3] at hd
  obtain ⟨s', xe, ⟨rp', b'⟩, -, hret, hf⟩ := hd
  obtain ⟨m', rr, -, hv'⟩ := C25_structured wf xe (codeL nv l) _ (ok u xv yv nv) hs
  have n3 : ∀ z, 0x7000000 ≤ z → z < 0x7F00000 → m' z = putBytes s xv.toNat (t ++ [0]) z := fun z z1 z2 => by
    rw [← view_far m' z1 z2, hv', hf z (farInt z1 z2) (scr_far z1 z2)]; rfl
  obtain ⟨p3, r3⟩ := put_far n3 (by omega) (by simp only [List.length_append, List.length_singleton]; omega)
  simp only [List.length_append, List.length_singleton] at p3 r3
  refine ⟨m', rr, fun i hi => ?_, ?_, fun q q1 q2 q3 => ?_, ?_, ?_⟩
  · rw [p3 i (by omega), List.getElem_append_left hi]
  · rw [p3 t.length (by omega), List.getElem_append_right (by omega)]
    simp
  · rw [r3 q q1 q2 (by omega), hb q q1 q2]
  · rw [← Layout.view_at (L := L) (m := m') (cell (x := ret + 348) (by decide +kernel)).2, hv', show s' (ret + 348) = xv + BitVec.ofNat 32 t.length from hret, BitVec.toNat_add, BitVec.toNat_ofNat]
    omega
  · rw [← Layout.view_at (L := L) (m := m') (cell (x := cpAddr) (by decide +kernel)).2, hv', b'.com.2.2.1]

end ExPrint

end Eud.SC
