import Verif.Lib.ByteRw
/-
C37: `seekepd` and `seekoffset` of `EUDByteReader` and `EUDByteWriter` (memio/byterw.py:42-80, 136-165).
-/

namespace Eud.SC

/-! ## Seeking -/

/-- `q - (0x58A364 // 4)` as a dword. -/
def epdOfQ (q : Nat) : BitVec 32 := BitVec.ofNat 32 q + BitVec.ofNat 32 (2 ^ 32 - 0x58A364 / 4)

theorem epdAddr_ofQ {q : Nat} {e : BitVec 32} (h : e.toNat = q) (hq : q < 2 ^ 30) : epdAddr (e + BitVec.ofNat 32 (2 ^ 32 - 0x58A364 / 4)) = 4 * q := by
  unfold epdAddr
  rw [BitVec.toNat_add, h, BitVec.toNat_ofNat]
  simp only [deathTable]
  omega

theorem epdAddr_epdOfQ {p : Nat} (hp : p < 2 ^ 32) : epdAddr (epdOfQ (p / 4)) = p / 4 * 4 := by
  rw [epdOfQ, epdAddr_ofQ (q := p / 4) (by rw [BitVec.toNat_ofNat]; omega) (by omega)]; omega

/-- byterw.py:42-50 `EUDByteReader.seekepd(epd, subp=i)` -/
def brSeekEpd (R : BRd) (e : Src) (i : Nat) : Stmt := .asg [⟨R.rd + 4, .set, .const (BitVec.ofNat 32 (R.cs i))⟩, ⟨R.rd + 348, .set, e⟩]
/-- byterw.py:67-80 `EUDByteReader.seekoffset(p)`, for a constant. -/
def brSeekC (R : BRd) (p : Nat) : Stmt := .asg [⟨R.rd + 348, .set, .const (epdOfQ (p / 4))⟩, ⟨R.rd + 4, .set, .const (BitVec.ofNat 32 (R.cs (p % 4)))⟩]
/-- byterw.py:136-144 `EUDByteWriter.seekepd(epd, subp=i)` -/
def bwSeekEpd (W : BWr) (e : Src) (i : Src) : Stmt := .asg [⟨W.sub, .set, i⟩, ⟨W.wr + 344, .set, e⟩]
/-- byterw.py:152-165 `EUDByteWriter.seekoffset(p)`, for a constant. -/
def bwSeekC (W : BWr) (p : Nat) : Stmt := .asg [⟨W.wr + 344, .set, .const (epdOfQ (p / 4))⟩, ⟨W.sub, .set, .const (BitVec.ofNat 32 (p % 4))⟩]

/-- The dwords of a reader. -/
def brOwn (R : BRd) : List Nat := [R.rd + 4, R.rd + 348]

theorem brSeekEpd_does {L : Layout} {R : BRd} (c4 : L.cell (R.rd + 4)) (c348 : L.cell (R.rd + 348)) {e : Src} (he : ∀ v, e = .var v → v ∈ L.P.vars ∧ v + 348 ≠ R.rd + 4) {i : Nat} (hi : i < 4) (s : Mem) :
    Does L (brSeekEpd R e i) s fun s' => R.At s' (epdAddr (e.valM s) + i) ∧ Only (brOwn R) s s' := by
  refine Does.asg (by simp only [List.mem_cons, List.not_mem_nil, or_false, forall_eq_or_imp, forall_eq]; exact ⟨c4, c348⟩)
    (by simp only [List.mem_cons, List.not_mem_nil, or_false, forall_eq_or_imp, forall_eq]; exact ⟨by simp, fun v hv => (he v hv).1⟩) ?_
  have hv : e.valM (s.set (R.rd + 4) (BitVec.ofNat 32 (R.cs i))) = e.valM s := by
    cases e with
    | const c => rfl
    | var v => exact set_ne (he v rfl).2
  have := epdAddr_mod (e.valM s)
  simp only [runAsg, arith, hv, show Src.valM s (.const (BitVec.ofNat 32 (R.cs i))) = BitVec.ofNat 32 (R.cs i) from rfl]
  refine ⟨⟨?_, ?_⟩, ((Only.refl _ s).set (by simp [brOwn]) _).set (by simp [brOwn]) _⟩
  · rw [set_ne (by omega), set_eq, show (epdAddr (e.valM s) + i) % 4 = i by omega]
  · rw [set_eq]; omega

theorem brSeekC_does {L : Layout} {R : BRd} (c4 : L.cell (R.rd + 4)) (c348 : L.cell (R.rd + 348)) {p : Nat} (hp : p < 2 ^ 32) (s : Mem) :
    Does L (brSeekC R p) s fun s' => R.At s' p ∧ Only (brOwn R) s s' := by
  refine Does.asg (by simp only [List.mem_cons, List.not_mem_nil, or_false, forall_eq_or_imp, forall_eq]; exact ⟨c348, c4⟩)
    (by simp only [List.mem_cons, List.not_mem_nil, or_false, forall_eq_or_imp, forall_eq]; exact ⟨by simp, by simp⟩) ?_
  simp only [runAsg, arith, Src.valM]
  refine ⟨⟨by rw [set_eq], ?_⟩, ((Only.refl _ s).set (by simp [brOwn]) _).set (by simp [brOwn]) _⟩
  rw [set_ne (by omega), set_eq, epdAddr_epdOfQ hp]

theorem bwSeekEpd_does {L : Layout} {W : BWr} (hW : BWrOk L W) {e i : Src} (he : ∀ v, e = .var v → v ∈ L.P.vars ∧ v + 348 ≠ W.sub) (hv : ∀ v, i = .var v → v ∈ L.P.vars) {s : Mem}
    (hi : (i.valM s).toNat < 4) (h0 : s (W.wr + 348) = 0) :
    Does L (bwSeekEpd W e i) s fun s' => W.At s' (epdAddr (e.valM s) + (i.valM s).toNat) ∧ Only [W.wr + 344, W.sub] s s' := by
  have ns := hW.ns
  simp only [List.mem_cons, List.not_mem_nil, or_false, not_or] at ns
  refine Does.asg (by simp only [List.mem_cons, List.not_mem_nil, or_false, forall_eq_or_imp, forall_eq]; exact ⟨hW.csub, hW.c344⟩)
    (by simp only [List.mem_cons, List.not_mem_nil, or_false, forall_eq_or_imp, forall_eq]; exact ⟨hv, fun v hv => (he v hv).1⟩) ?_
  have hv : e.valM (s.set W.sub (i.valM s)) = e.valM s := by
    cases e with
    | const c => rfl
    | var v => exact set_ne (he v rfl).2
  have := epdAddr_mod (e.valM s)
  simp only [runAsg, arith, hv]
  refine ⟨⟨?_, ?_, ?_⟩, ((Only.refl _ s).set (by simp) _).set (by simp) _⟩
  · rw [set_ne (by grind), set_eq, show (epdAddr (e.valM s) + (i.valM s).toNat) % 4 = (i.valM s).toNat by omega, BitVec.ofNat_toNat, BitVec.setWidth_eq]
  · rw [set_eq]; omega
  · rw [set_ne (by omega), set_ne (by grind), h0]

theorem bwSeekC_does {L : Layout} {W : BWr} (hW : BWrOk L W) {p : Nat} (hp : p < 2 ^ 32) {s : Mem} (h0 : s (W.wr + 348) = 0) :
    Does L (bwSeekC W p) s fun s' => W.At s' p ∧ Only [W.wr + 344, W.sub] s s' := by
  have ns := hW.ns
  simp only [List.mem_cons, List.not_mem_nil, or_false, not_or] at ns
  refine Does.asg (by simp only [List.mem_cons, List.not_mem_nil, or_false, forall_eq_or_imp, forall_eq]; exact ⟨hW.c344, hW.csub⟩)
    (by simp only [List.mem_cons, List.not_mem_nil, or_false, forall_eq_or_imp, forall_eq]; exact ⟨by simp, by simp⟩) ?_
  simp only [runAsg, arith, Src.valM]
  refine ⟨⟨by rw [set_eq], ?_, ?_⟩, ((Only.refl _ s).set (by simp) _).set (by simp) _⟩
  · rw [set_ne (by grind), set_eq, epdAddr_epdOfQ hp]
  · rw [set_ne (by grind), set_ne (by omega), h0]

/-- muldiv.py:222-275: the function `_const_div(4)`; `a` is the parameter and the second result. -/
structure Div4 where
  a : Nat
  q : Nat
  fs : Nat
  fe : Nat
  np : Nat

/-- muldiv.py:39-74: `f_div(off, 4, ret=[o1, o2])` -/
def Div4.call (D : Div4) (L : Layout) (back o1 o2 : Nat) (x : Src) : Stmt := .prim (CallRel L D.fe D.np back (constDivPow (D.a + 348) (D.q + 348) 4) [(D.q, o1), (D.a, o2)] [(D.a + 348, x)])

def Div4.own (D : Div4) : List Nat := [D.np, D.q + 4, D.a + 4, D.q + 344, D.a + 344, D.a + 348, D.q + 348]

structure Div4Ok (L : Layout) (D : Div4) : Prop where
  ca : L.cell (D.a + 348)
  cq : L.cell (D.q + 348)
  ne : D.a ≠ D.q
  fc : FuncCode L D.fs D.fe D.np [D.q, D.a] (constDivPow (D.a + 348) (D.q + 348) 4)

theorem Div4.does {L : Layout} (hw : L.Wf) {D : Div4} (hD : Div4Ok L D) {back o1 o2 : Nat} {x : Src} (hb : back < 2 ^ 32) (hO : CallOk L D.np [(D.q, o1), (D.a, o2)] [(D.a + 348, x)] [D.a + 348, D.q + 348])
    (s : Mem) : Does L (D.call L back o1 o2 x) s fun s' => (s' o1).toNat = (x.valM s).toNat / 4 ∧ (s' o2).toNat = (x.valM s).toNat % 4 ∧ Only (o1 :: o2 :: D.own) s s' := by
  refine (C31_does hw hO hD.fc hb (s := s) (Q := fun s2 => (s2 (D.q + 348)).toNat = (x.valM s).toNat / 4 ∧ (s2 (D.a + 348)).toNat = (x.valM s).toNat % 4) ?_).mono ?_
  · intro s1 e1 e2
    simp only [List.mem_singleton, forall_eq] at e1
    have n : D.a + 348 ≠ D.q + 348 := by have := hD.ne; omega
    refine Wp.mono (Does.wp (C21_const_pow 2 hD.ca hD.cq n s1)) ?_
    rintro o s2 ⟨rfl, g1, g2, g3⟩
    rw [e1] at g1 g2
    exact ⟨Or.inl rfl, ⟨g1, g2⟩, g3⟩
  · rintro s' ⟨⟨s2, ⟨g1, g2⟩, g3, -⟩, g5⟩
    simp only [List.mem_cons, List.not_mem_nil, or_false, forall_eq_or_imp, forall_eq] at g3
    refine ⟨by rw [g3.1, g1], by rw [g3.2, g2], g5.mono fun y hy => ?_⟩
    simp only [callOnly, Div4.own, List.map_cons, List.map_nil, List.cons_append, List.nil_append, List.mem_cons, List.not_mem_nil, or_false] at hy ⊢
    grind

/-- A method of a reader or writer with one parameter. -/
structure Meth where
  off : Nat
  fs : Nat
  fe : Nat
  np : Nat

def Meth.own (M : Meth) : List Nat := [M.np, M.off + 348]

/-- byterw.py:52-65 `EUDByteReader._seekoffset`; `ev3` is the variable `_ev[3]`. -/
def brSeekBody (L : Layout) (D : Div4) (back ev3 : Nat) (R : BRd) (off : Nat) : Stmt :=
  .seq (D.call L back (R.rd + 348) (ev3 + 348) (.var off))
    (.seq (.trig [] [aMem (R.rd + 348) .add (BitVec.ofNat 32 (2 ^ 32 - 0x58A364 / 4)), aMem (R.rd + 4) .set (BitVec.ofNat 32 (R.cs 0))])
      (.seqs ([1, 2, 3].map fun i => .trig [cMem (ev3 + 348) .exactly (BitVec.ofNat 32 i)] [aMem (R.rd + 4) .set (BitVec.ofNat 32 (R.cs i))])))

/-- byterw.py:146-150 `EUDByteWriter._seekoffset` -/
def bwSeekBody (L : Layout) (D : Div4) (back : Nat) (W : BWr) (off : Nat) : Stmt :=
  .seq (D.call L back (W.wr + 344) W.sub (.var off)) (.trig [] [aMem (W.wr + 344) .add (BitVec.ofNat 32 (2 ^ 32 - 0x58A364 / 4))])

theorem brSeekBody_does {L : Layout} (hw : L.Wf) {D : Div4} (hD : Div4Ok L D) {back ev3 off : Nat} {R : BRd} (hb : back < 2 ^ 32) (c4 : L.cell (R.rd + 4)) (c348 : L.cell (R.rd + 348)) (ce : L.cell (ev3 + 348))
    (hO : CallOk L D.np [(D.q, R.rd + 348), (D.a, ev3 + 348)] [(D.a + 348, .var off)] [D.a + 348, D.q + 348]) (ne : ev3 + 348 ∉ brOwn R) (s : Mem) :
    Does L (brSeekBody L D back ev3 R off) s fun s' => R.At s' (s (off + 348)).toNat ∧ Only ((ev3 + 348) :: (brOwn R ++ D.own)) s s' := by
  simp only [brOwn, List.mem_cons, List.not_mem_nil, or_false, not_or] at ne
  refine Does.seq ((D.does hw hD hb hO s).mono ?_)
  rintro s1 ⟨g1, g2, g3⟩
  simp only [show Src.valM s (.var off) = s (off + 348) from rfl] at g1 g2
  have hlt := (s (off + 348)).isLt
  generalize (s (off + 348)).toNat = p at g1 g2 hlt ⊢
  refine Does.seq (Does.acts (actsOk_mem c348 (actsOk_mem c4 trivial)) ?_)
  rw [runPA_cons, runPA_cons, runPA_nil, aMem_run, aMem_run]
  generalize hs2 : (s1.set (R.rd + 348) (arith .add (s1 (R.rd + 348)) (BitVec.ofNat 32 (2 ^ 32 - 0x58A364 / 4)))).set (R.rd + 4) _ = s2
  have f1 : epdAddr (s2 (R.rd + 348)) = p / 4 * 4 := by rw [← hs2, set_ne (by omega), set_eq, arith, epdAddr_ofQ g1 (by omega)]; omega
  have f2 : s2 (R.rd + 4) = BitVec.ofNat 32 (R.cs 0) := by rw [← hs2, set_eq, arith]
  have f3 : (s2 (ev3 + 348)).toNat = p % 4 := by rw [← hs2, set_ne ne.1, set_ne ne.2, g2]
  have f4 : Only (brOwn R) s1 s2 := by rw [← hs2]; exact ((Only.refl _ s1).set (by simp [brOwn]) _).set (by simp [brOwn]) _
  have key := Does.chain (L := L) (fun i => Stmt.trig [cMem (ev3 + 348) .exactly (BitVec.ofNat 32 i)] [aMem (R.rd + 4) .set (BitVec.ofNat 32 (R.cs i))])
    (fun l s' => (s' (R.rd + 4) = BitVec.ofNat 32 (R.cs (p % 4)) ∨ p % 4 ∈ l) ∧ (∀ i ∈ l, 1 ≤ i ∧ i < 4) ∧ Only [R.rd + 4] s2 s') [1, 2, 3] s2 ?_ ?_
  · refine key.mono ?_
    rintro s3 ⟨k1, -, k2⟩
    refine ⟨⟨k1.resolve_right (by simp), ?_⟩, ?_⟩
    · rw [k2 _ (by simp), f1]
    · refine Only.trans (g3.mono ?_) ((f4.mono ?_).trans (k2.mono ?_)) <;>
        (intro x hx; simp only [brOwn, List.mem_cons, List.mem_append, List.not_mem_nil, or_false] at hx ⊢; grind)
  · refine ⟨?_, by simp, Only.refl _ _⟩
    have : p % 4 = 0 ∨ p % 4 = 1 ∨ p % 4 = 2 ∨ p % 4 = 3 := by omega
    rcases this with h | h | h | h
    · rw [f2, h]; exact Or.inl rfl
    all_goals (rw [h]; exact Or.inr (by simp))
  · rintro i l s3 - ⟨k1, k2, k3⟩
    have hi := k2 i (by simp)
    have e3 : (s3 (ev3 + 348)).toNat = p % 4 := by rw [k3 _ (by simpa using ne.1), f3]
    refine Does.trig (by simp only [List.mem_singleton, forall_eq]; exact cMem_ok ce _ _ _) ?_ ?_ <;>
      simp only [holdsAll_cons, holdsAll_nil, Bool.and_true, cMem_holds, compare, decide_eq_true_eq, decide_eq_false_iff_not] <;> intro h <;>
      rw [← BitVec.toNat_inj, e3, BitVec.toNat_ofNat, Nat.mod_eq_of_lt (show i < 2 ^ 32 by omega)] at h
    · refine ⟨actsOk_mem c4 trivial, ?_⟩
      simp only [runPA_cons, runPA_nil, aMem_run, arith]
      exact ⟨Or.inl (by rw [set_eq, h]), fun i hi => k2 i (by simp [hi]), k3.set (by simp) _⟩
    · refine ⟨?_, fun i hi => k2 i (by simp [hi]), k3⟩
      rcases k1 with k1 | k1
      · exact Or.inl k1
      · rcases List.mem_cons.1 k1 with k1 | k1
        · exact absurd k1 h
        · exact Or.inr k1

theorem bwSeekBody_does {L : Layout} (hw : L.Wf) {D : Div4} (hD : Div4Ok L D) {back off : Nat} {W : BWr} (hb : back < 2 ^ 32) (hW : BWrOk L W)
    (hO : CallOk L D.np [(D.q, W.wr + 344), (D.a, W.sub)] [(D.a + 348, .var off)] [D.a + 348, D.q + 348]) (hn : W.wr + 348 ∉ D.own) {s : Mem} (h0 : s (W.wr + 348) = 0) :
    Does L (bwSeekBody L D back W off) s fun s' => W.At s' (s (off + 348)).toNat ∧ Only ([W.wr + 344, W.sub] ++ D.own) s s' := by
  have ns := hW.ns
  simp only [List.mem_cons, List.not_mem_nil, or_false, not_or] at ns
  refine Does.seq ((D.does hw hD hb hO s).mono ?_)
  rintro s1 ⟨g1, g2, g3⟩
  simp only [show Src.valM s (.var off) = s (off + 348) from rfl] at g1 g2
  have hlt := (s (off + 348)).isLt
  generalize (s (off + 348)).toNat = p at g1 g2 hlt ⊢
  refine Does.acts (actsOk_mem hW.c344 trivial) ?_
  simp only [runPA_cons, runPA_nil, aMem_run, arith]
  refine ⟨⟨?_, ?_, ?_⟩, Only.set (g3.mono ?_) (by simp) _⟩
  · rw [set_ne (by grind)]
    apply BitVec.eq_of_toNat_eq
    rw [g2, BitVec.toNat_ofNat]; omega
  · rw [set_eq, epdAddr_ofQ g1 (by omega)]; omega
  · rw [set_ne (by omega), g3 _ (by simp only [List.mem_cons, not_or]; exact ⟨by omega, by grind, hn⟩), h0]
  · intro x hx; simp only [List.mem_cons, List.mem_append, List.not_mem_nil, or_false] at hx ⊢; grind

/-- byterw.py:67-72: `seekoffset(x)` of a reader, for a variable. -/
def brSeekV (L : Layout) (D : Div4) (bk ev3 back : Nat) (R : BRd) (M : Meth) (x : Src) : Stmt := .prim (CallRel L M.fe M.np back (brSeekBody L D bk ev3 R M.off) [] [(M.off + 348, x)])
/-- byterw.py:152-157: `seekoffset(x)` of a writer, for a variable. -/
def bwSeekV (L : Layout) (D : Div4) (bk back : Nat) (W : BWr) (M : Meth) (x : Src) : Stmt := .prim (CallRel L M.fe M.np back (bwSeekBody L D bk W M.off) [] [(M.off + 348, x)])

theorem brSeekV_does {L : Layout} (hw : L.Wf) {D : Div4} (hD : Div4Ok L D) {bk ev3 back : Nat} {R : BRd} {M : Meth} {x : Src} (hbk : bk < 2 ^ 32) (hb : back < 2 ^ 32) (c4 : L.cell (R.rd + 4)) (c348 : L.cell (R.rd + 348))
    (ce : L.cell (ev3 + 348)) (hO : CallOk L D.np [(D.q, R.rd + 348), (D.a, ev3 + 348)] [(D.a + 348, .var M.off)] [D.a + 348, D.q + 348]) (ne : ev3 + 348 ∉ brOwn R)
    (hF : FuncCode L M.fs M.fe M.np [] (brSeekBody L D bk ev3 R M.off)) (hC : CallOk L M.np [] [(M.off + 348, x)] ((ev3 + 348) :: (brOwn R ++ D.own))) (s : Mem) :
    Does L (brSeekV L D bk ev3 back R M x) s fun s' => R.At s' (x.valM s).toNat ∧ Only (M.own ++ (ev3 + 348) :: (brOwn R ++ D.own)) s s' := by
  refine (C31_does hw hC hF hb (s := s) (Q := fun s2 => R.At s2 (x.valM s).toNat) ?_).mono ?_
  · intro s1 e1 e2
    simp only [List.mem_singleton, forall_eq] at e1
    refine Wp.mono (Does.wp (brSeekBody_does hw hD hbk c4 c348 ce hO ne s1)) ?_
    rintro o s2 ⟨rfl, g1, g2⟩
    rw [e1] at g1
    exact ⟨Or.inl rfl, g1, g2⟩
  · rintro s' ⟨⟨s2, q1, -, q3⟩, q4⟩
    have e : s' = s2 := funext fun y => q3 y (by simp)
    subst e
    exact ⟨q1, q4.mono fun y hy => by simpa [callOnly, Meth.own] using hy⟩

theorem bwSeekV_does {L : Layout} (hw : L.Wf) {D : Div4} (hD : Div4Ok L D) {bk back : Nat} {W : BWr} {M : Meth} {x : Src} (hbk : bk < 2 ^ 32) (hb : back < 2 ^ 32) (hW : BWrOk L W)
    (hO : CallOk L D.np [(D.q, W.wr + 344), (D.a, W.sub)] [(D.a + 348, .var M.off)] [D.a + 348, D.q + 348]) (hn : W.wr + 348 ∉ D.own) (hm : W.wr + 348 ∉ M.own)
    (hF : FuncCode L M.fs M.fe M.np [] (bwSeekBody L D bk W M.off)) (hC : CallOk L M.np [] [(M.off + 348, x)] ([W.wr + 344, W.sub] ++ D.own)) {s : Mem} (h0 : s (W.wr + 348) = 0) :
    Does L (bwSeekV L D bk back W M x) s fun s' => W.At s' (x.valM s).toNat ∧ Only (M.own ++ ([W.wr + 344, W.sub] ++ D.own)) s s' := by
  refine (C31_does hw hC hF hb (s := s) (Q := fun s2 => W.At s2 (x.valM s).toNat) ?_).mono ?_
  · intro s1 e1 e2
    simp only [List.mem_singleton, forall_eq] at e1
    refine Wp.mono (Does.wp (bwSeekBody_does hw hD hbk hW hO hn (s := s1) (by rw [e2 _ (by simpa [Meth.own] using hm), h0]))) ?_
    rintro o s2 ⟨rfl, g1, g2⟩
    rw [e1] at g1
    exact ⟨Or.inl rfl, g1, g2⟩
  · rintro s' ⟨⟨s2, q1, -, q3⟩, q4⟩
    have e : s' = s2 := funext fun y => q3 y (by simp)
    subst e
    exact ⟨q1, q4.mono fun y hy => by simpa [callOnly, Meth.own] using hy⟩

end Eud.SC
