import Verif.Lib.DwBreak
import Verif.Lib.ByteWrite
import Verif.Lib.MulDivFn
import Verif.Lib.StrLen
/-
C34: `f_wwrite_epd` (memio/bwepdio.py:28-61), for all offsets; at offset 3 the word lies in two dwords.
-/

namespace Eud.SC

/-- `st` puts the lowest two bytes of `v` into `b0` and `b1`, as long as `I` holds. -/
def BrkTo (L : Layout) (I : Mem → Prop) (st : Stmt) (v b0 b1 : Nat) (scr : List Nat) : Prop :=
  ∀ s, I s → Does L st s fun s' => s' (b0 + 348) = BitVec.ofNat 32 ((s (v + 348)).toNat % 2 ^ 8) ∧ s' (b1 + 348) = BitVec.ofNat 32 ((s (v + 348)).toNat / 2 ^ 8 % 2 ^ 8) ∧ I s' ∧ Only scr s s'

/-- bwepdio.py:43-46, cpmemio.py:240-256: the case of offset 3.  `br` is the call of `f_dwbreak`, `m0` and `m1` are the multiplications by `256 ** 3` and `256 ** 0`, whose results
are `t0` and `t1`; the actions are at `p0` and `p1`.  Control falls through to the end of the switch, which is where `.brk` goes. -/
def wwCase3 (br m0 m1 : Stmt) (t0 t1 p0 p1 : Nat) : Stmt :=
  .seq br (.seq m0 (.seq (.asg [⟨p0 + 20, .set, .var t0⟩]) (.seq (.trig [] [aCpV .set (byteMask 1 3) p0])
    (.seq m1 (.seq (.asg [⟨p1 + 20, .set, .var t1⟩]) (.seq (.trig [] [aMem cpAddr .add 1, aCpV .set (byteMask 1 0) p1, aMem cpAddr .add (-1)]) .brk))))))

/-- The next dword. -/
theorem epdAddr_next (e : W) : epdAddr (e + 1) = (epdAddr e + 4) % 2 ^ 32 := epdAddr_off e 1

theorem epdAddr_next_ne (e : W) : epdAddr (e + 1) ≠ epdAddr e := by
  rw [epdAddr_next]
  have := (epdAddr_mod4 e).2
  omega

/-- What the case of offset 3 needs. -/
structure Ww3 (L : Layout) (I : Mem → Prop) (br m0 m1 : Stmt) (wv b0 b1 t0 t1 p0 p1 : Nat) (scr : List Nat) : Prop where
  hbr : BrkTo L I br wv b0 b1 scr
  /-- The first multiplication, and what follows it, leave `b1` alone. -/
  hm0 : ∃ s0, ShlTo L I m0 b0 24 t0 s0 ∧ (∀ y ∈ s0, y ∈ scr) ∧ b1 + 348 ∉ (p0 + 20) :: (t0 + 348) :: s0
  hm1 : ShlTo L I m1 b1 0 t1 scr
  ht0 : t0 ∈ L.P.vars
  ht1 : t1 ∈ L.P.vars
  hp0 : L.cell (p0 + 20)
  hp1 : L.cell (p1 + 20)
  sub : ∀ y ∈ [p0 + 20, p1 + 20, t0 + 348, t1 + 348, b1 + 348], y ∈ scr

theorem wwCase3_does {L : Layout} {I : Mem → Prop} {br m0 m1 : Stmt} {wv b0 b1 t0 t1 p0 p1 : Nat} {scr : List Nat} (h : Ww3 L I br m0 m1 wv b0 b1 t0 t1 p0 p1 scr) (hcc : L.cell cpAddr)
    {s : Mem} (hi : I s) {A A2 : Nat} (hA : A = epdAddr (s cpAddr)) (hA2 : A2 = epdAddr (s cpAddr + 1)) (hcA : L.cell A) (hcA2 : L.cell A2) (hnA : A ∉ cpAddr :: scr) (hnA2 : A2 ∉ cpAddr :: scr)
    (hcp : cpAddr ∉ scr) (hI : ∀ s s', Only [p0 + 20, p1 + 20, A, A2, cpAddr] s s' → I s → I s') :
    Wp L (wwCase3 br m0 m1 t0 t1 p0 p1) s fun o s' => o = .brk ∧ FieldOp .set 1 3 (s (wv + 348)) (s A) (s' A) ∧ FieldOp .set 1 0 (s (wv + 348) >>> 8) (s A2) (s' A2) ∧ I s' ∧ s' cpAddr = s cpAddr ∧
      Only ([A, A2, cpAddr] ++ scr) s s' := by
  obtain ⟨hbr, ⟨sc0, hm0, hs0, hb1⟩, hm1, ht0, ht1, hp0, hp1, hsub⟩ := h
  have n12 : A2 ≠ A := by rw [hA, hA2]; exact epdAddr_next_ne _
  simp only [List.mem_cons, not_or] at hnA hnA2 hb1
  have q0 := hsub (p0 + 20) (by simp)
  have q1 := hsub (p1 + 20) (by simp)
  have q2 := hsub (t0 + 348) (by simp)
  have q3 := hsub (t1 + 348) (by simp)
  have q4 := hsub (b1 + 348) (by simp)
  have ncp : ∀ y ∈ scr, cpAddr ≠ y := fun y hy e => hcp (e ▸ hy)
  have nA : ∀ y ∈ scr, A ≠ y := fun y hy e => hnA.2 (e ▸ hy)
  have nA2 : ∀ y ∈ scr, A2 ≠ y := fun y hy e => hnA2.2 (e ▸ hy)
  unfold wwCase3
  refine Wp.seqN (Does.mono (hbr s hi) ?_)
  rintro s1 ⟨v0, v1, i1, o1⟩
  refine Wp.seqN (Does.mono (hm0 s1 i1) ?_)
  rintro s2 ⟨w0, i2, o2⟩
  have o2' : Only scr s1 s2 := o2.mono fun y hy => by
    rcases List.mem_cons.1 hy with rfl | hy
    · exact q2
    · exact hs0 y hy
  have v1' : s2 (b1 + 348) = s1 (b1 + 348) := o2 _ (by simp only [List.mem_cons, not_or]; exact ⟨hb1.2.1, hb1.2.2⟩)
  refine Wp.seqN (Does.asg (by simpa using hp0) (by simpa using ht0) ?_)
  have e2 : runAsg [⟨p0 + 20, .set, .var t0⟩] s2 = s2.set (p0 + 20) (s1 (b0 + 348) <<< 24) := by simp only [runAsg, arith, Src.valM, w0]
  rw [e2]
  generalize hs3 : s2.set (p0 + 20) (s1 (b0 + 348) <<< 24) = s3
  have o3 : Only scr s2 s3 := hs3 ▸ (Only.refl _ s2).set q0 _
  have i3 : I s3 := hI s2 s3 (hs3 ▸ (Only.refl _ s2).set (by simp) _) i2
  have c3 : s3 cpAddr = s cpAddr := by rw [o3 _ hcp, o2' _ hcp, o1 _ hcp]
  have a3 : s3 A = s A := by rw [o3 _ hnA.2, o2' _ hnA.2, o1 _ hnA.2]
  have p3 : s3 (p0 + 20) = s1 (b0 + 348) <<< 24 := by rw [← hs3, set_eq]
  have b3 : s3 (b1 + 348) = s1 (b1 + 348) := by rw [← hs3, set_ne hb1.1, v1']
  refine Wp.seqN (Does.acts (actsOk_cpV (by rw [c3, ← hA]; exact hcA) trivial) ?_)
  rw [runPA_cons, runPA_nil, aCpV_run, c3, ← hA, a3, p3]
  generalize hs4 : s3.set A (modify .set (s A) (s1 (b0 + 348) <<< 24) (byteMask 1 3)) = s4
  have i4 : I s4 := hI s3 s4 (hs4 ▸ (Only.refl _ s3).set (by simp) _) i3
  have f4 : ∀ y, y ≠ A → s4 y = s3 y := fun y hy => by rw [← hs4, set_ne hy]
  have a4 : s4 A = modify .set (s A) (s1 (b0 + 348) <<< 24) (byteMask 1 3) := by rw [← hs4, set_eq]
  refine Wp.seqN (Does.mono (hm1 s4 i4) ?_)
  rintro s5 ⟨w1, i5, o5⟩
  have o5' : Only scr s4 s5 := o5.mono fun y hy => by
    rcases List.mem_cons.1 hy with rfl | hy
    · exact q3
    · exact hy
  have w1' : s5 (t1 + 348) = s1 (b1 + 348) <<< 0 := by rw [w1, f4 _ (Ne.symm (nA _ q4)), b3]
  refine Wp.seqN (Does.asg (by simpa using hp1) (by simpa using ht1) ?_)
  have e5 : runAsg [⟨p1 + 20, .set, .var t1⟩] s5 = s5.set (p1 + 20) (s1 (b1 + 348) <<< 0) := by simp only [runAsg, arith, Src.valM, w1']
  rw [e5]
  generalize hs6 : s5.set (p1 + 20) (s1 (b1 + 348) <<< 0) = s6
  have o6 : Only scr s5 s6 := hs6 ▸ (Only.refl _ s5).set q1 _
  have i6 : I s6 := hI s5 s6 (hs6 ▸ (Only.refl _ s5).set (by simp) _) i5
  have c6 : s6 cpAddr = s cpAddr := by rw [o6 _ hcp, o5' _ hcp, f4 _ (Ne.symm hnA.1), c3]
  have a6 : s6 A = s4 A := by rw [o6 _ hnA.2, o5' _ hnA.2]
  have d6 : s6 A2 = s A2 := by rw [o6 _ hnA2.2, o5' _ hnA2.2, f4 _ n12, o3 _ hnA2.2, o2' _ hnA2.2, o1 _ hnA2.2]
  have p6 : s6 (p1 + 20) = s1 (b1 + 348) <<< 0 := by rw [← hs6, set_eq]
  have c7 : ((aMem cpAddr .add 1).run s6) cpAddr = s cpAddr + 1 := by rw [aMem_run, set_eq, c6]; rfl
  refine Wp.seqN (Does.acts (actsOk_mem hcc (actsOk_cpV (by rw [c7, ← hA2]; exact hcA2) (actsOk_mem hcc trivial))) ?_)
  rw [runPA_cons, runPA_cons, runPA_cons, runPA_nil, aCpV_run, c7, ← hA2, aMem_run, aMem_run]
  generalize hx : modify .set ((s6.set cpAddr (arith .add (s6 cpAddr) 1)) A2) ((s6.set cpAddr (arith .add (s6 cpAddr) 1)) (p1 + 20)) (byteMask 1 0) = x
  rw [set_ne hnA2.1, set_ne (Ne.symm (ncp _ q1)), d6, p6] at hx
  have oo : ∀ y, y ≠ A2 → y ≠ cpAddr → ((((s6.set cpAddr (arith .add (s6 cpAddr) 1)).set A2 x).set cpAddr (arith .add ((s6.set cpAddr (arith .add (s6 cpAddr) 1)).set A2 x cpAddr) (-1)))) y = s6 y := fun y h1 h2 => by
    rw [set_ne h2, set_ne h1, set_ne h2]
  refine Wp.brk ⟨rfl, ?_, ?_, ?_, ?_, ?_⟩
  · rw [oo A (Ne.symm n12) hnA.1, a6, a4, v0]
    have := field_op .set (s A) (BitVec.ofNat 32 ((s (wv + 348)).toNat % 2 ^ 8)) (n := 1) (i := 3) (by decide)
    refine ⟨this.1.trans ?_, this.2⟩
    congr 1
    apply BitVec.eq_of_toNat_eq
    simp only [BitVec.toNat_setWidth, BitVec.toNat_ofNat]
    omega
  · rw [set_ne hnA2.1, set_eq, ← hx, v1]
    have := field_op .set (s A2) (BitVec.ofNat 32 ((s (wv + 348)).toNat / 2 ^ 8 % 2 ^ 8)) (n := 1) (i := 0) (by decide)
    refine ⟨this.1.trans ?_, this.2⟩
    congr 1
    apply BitVec.eq_of_toNat_eq
    simp only [BitVec.toNat_setWidth, BitVec.toNat_ofNat, BitVec.toNat_ushiftRight, Nat.shiftRight_eq_div_pow]
    omega
  · refine hI s6 _ ?_ i6
    exact ((((Only.refl _ s6).set (by simp) _).set (by simp) _).set (by simp) _)
  · rw [set_eq, set_ne (Ne.symm hnA2.1), set_eq, c6]
    simp only [arith]
    rw [BitVec.add_assoc]
    simp
  · intro y hy
    simp only [List.mem_append, List.mem_cons, List.not_mem_nil, or_false, not_or] at hy
    obtain ⟨⟨y1, y2, y3⟩, y4⟩ := hy
    rw [oo y y2 y3, o6 _ y4, o5' _ y4, f4 _ y1, o3 _ y4, o2' _ y4, o1 _ y4]

/-- bwepdio.py:28-49: the cases of `_wwriter`. -/
def wwCases (sh : Nat → Stmt) (t p : Nat → Nat) (c3 : Stmt) (j : Nat) : Stmt := if j < 3 then wrCase .set 2 (sh j) (t j) (p j) j else c3

/-- **C34, words.**  `f_wwrite_epd(e, i, x)` for `i < 3` sets bytes `i` and `i + 1` of the dword `e` to the lower word of `x`; for `i = 3` it sets the highest byte of the dword `e` and the lowest byte of
the next one; above that it writes nothing.  All other bits are kept, and the current player is restored from its cache.  The next dword is only required to be free for `i = 3`. -/
theorem C34_word {L : Layout} (hw : L.Wf) {fend nptr fstart back ev sv wv cpc n1 n2 : Nat} {sh : Nat → Stmt} {t p : Nat → Nat} {br m0 m1 : Stmt} {b0 b1 t0 t1 p0 p1 : Nat}
    {e i x : Src} {I : Mem → Prop} {scr : List Nat}
    (hsh : ∀ j < 3, ShlTo L I (sh j) wv (8 * j) (t j) scr ∧ t j ∈ L.P.vars ∧ L.cell (p j + 20) ∧ p j + 20 ∈ scr ∧ t j + 348 ∈ scr)
    (h3 : Ww3 L I br m0 m1 wv b0 b1 t0 t1 p0 p1 scr) {s : Mem} {As : List Nat} (hAs : As = if (i.valM s).toNat = 3 then [epdAddr (e.valM s), epdAddr (e.valM s + 1)] else [epdAddr (e.valM s)])
    (hh : WrHyp L nptr ev sv wv cpc [] e i x As scr [] s)
    (hF : FuncCode L fstart fend nptr [] (wrBody L ev sv cpc n1 n2 (cases0 4 (wwCases sh t p (wwCase3 br m0 m1 t0 t1 p0 p1))) .skip)) (hback : back < 2 ^ 32) (hi : I s)
    (hI : ∀ s1 s', Only (callOnly nptr [] [(ev + 348, e), (sv + 348, i), (wv + 348, x)] (As ++ wrOwn ev cpc ++ [p0 + 20, p1 + 20] ++ (List.range 3).map fun j => p j + 20)) s1 s' → I s1 → I s') :
    Does L (.prim (CallRel L fend nptr back (wrBody L ev sv cpc n1 n2 (cases0 4 (wwCases sh t p (wwCase3 br m0 m1 t0 t1 p0 p1))) .skip) [] [(ev + 348, e), (sv + 348, i), (wv + 348, x)])) s fun s' =>
      (if (i.valM s).toNat < 3 then FieldOp .set 2 (i.valM s).toNat (x.valM s) (s (epdAddr (e.valM s))) (s' (epdAddr (e.valM s)))
        else if (i.valM s).toNat = 3 then FieldOp .set 1 3 (x.valM s) (s (epdAddr (e.valM s))) (s' (epdAddr (e.valM s))) ∧
          FieldOp .set 1 0 (x.valM s >>> 8) (s (epdAddr (e.valM s + 1))) (s' (epdAddr (e.valM s + 1)))
        else s' (epdAddr (e.valM s)) = s (epdAddr (e.valM s))) ∧ s' cpAddr = s (cpc + 348) ∧ I s' ∧
        Only (callOnly nptr [] [(ev + 348, e), (sv + 348, i), (wv + 348, x)] (As ++ wrOwn ev cpc ++ scr)) s s' := by
  have hm3 : (i.valM s).toNat = 3 → epdAddr (e.valM s + 1) ∈ As := fun h => by rw [hAs, if_pos h]; simp
  have hm1 : epdAddr (e.valM s) ∈ As := by rw [hAs]; split <;> simp
  have hcp : cpAddr ∉ scr := fun h => hh.cp (by simp only [callOnly, List.mem_cons, List.mem_append]; grind)
  have nA : ∀ A ∈ As, A ∉ cpAddr :: scr := fun A hA h => (hh.nA A hA).2 (by
    simp only [callOnly, wrOwn, List.mem_cons, List.mem_append, List.not_mem_nil, or_false] at h ⊢; grind)
  have hx3 : (i.valM s).toNat = 3 → As = [epdAddr (e.valM s), epdAddr (e.valM s + 1)] := fun h => by rw [hAs, if_pos h]
  clear hAs
  generalize hA : epdAddr (e.valM s) = A at *
  generalize hA2 : epdAddr (e.valM s + 1) = A2 at *
  have hcA := (hh.nA A hm1).1
  refine Does.mono (writer_call hw (I := I) (As := As) (scr := scr) (tscr := []) (R := fun j s' => if j < 3 then FieldOp .set 2 j (x.valM s) (s A) (s' A)
      else j = 3 → (i.valM s).toNat = 3 → FieldOp .set 1 3 (x.valM s) (s A) (s' A) ∧ FieldOp .set 1 0 (x.valM s >>> 8) (s A2) (s' A2)) (by omega) hh.vars ?_ ?_ skip_wp hh.ok hF hback hh.me hh.mc hi
    (fun a b hab => hI a b (hab.mono fun y hy => ?_)) (fun A hA => (hh.nA A hA).2) hh.cp hh.cc hh.ee hh.sv hh.wv) ?_
  · intro j hj ej s2 hI2 c1 eA d3
    unfold wwCases
    by_cases h : j < 3
    · simp only [if_pos h]
      obtain ⟨g1, g2, g3, g4, g5⟩ := hsh _ h
      have sub : ∀ y ∈ (p j + 20) :: (t j + 348) :: scr, y ∈ scr := by
        intro y hy
        simp only [List.mem_cons] at hy
        rcases hy with rfl | rfl | hy
        · exact g4
        · exact g5
        · exact hy
      have hpj : p j + 20 ∈ (List.range 3).map fun j => p j + 20 := List.mem_map.2 ⟨j, List.mem_range.2 h, rfl⟩
      refine Wp.mono (wrCase_does (md := .set) (nb := 2) (i := j) g1 g2 g3 hI2 (A := A) (by rw [c1, hA]) hcA
        (fun hy => nA A hm1 (List.mem_cons_of_mem _ (sub _ hy))) (fun hy => hcp (sub _ hy)) (fun a b hab => hI a b (hab.mono fun y hy => ?_))) ?_
      · simp only [callOnly, List.mem_cons, List.mem_append, List.not_mem_nil, or_false] at hy ⊢
        rcases hy with rfl | rfl <;> grind
      · rintro o s3 ⟨rfl, f1, f2, f3⟩
        refine ⟨rfl, ?_, f2, f3.mono fun y hy => ?_⟩
        · rw [f1, eA A hm1, d3]
          exact field_op .set _ _ (by omega)
        · simp only [List.mem_cons, List.mem_append] at hy ⊢
          have := sub y
          grind
    · simp only [if_neg h]
      have e3 : (i.valM s).toNat = 3 := by omega
      have hm2 := hm3 e3
      refine Wp.mono (wwCase3_does h3 hh.vars.cp hI2 (A := A) (A2 := A2) (by rw [c1, hA]) (by rw [c1, hA2]) hcA (hh.nA A2 hm2).1 (nA A hm1) (nA A2 hm2) hcp (fun a b hab => hI a b (hab.mono fun y hy => ?_))) ?_
      · simp only [callOnly, wrOwn, List.mem_cons, List.mem_append, List.not_mem_nil, or_false] at hy ⊢
        grind
      · rintro o s3 ⟨rfl, f1, f2, f3, f4, f5⟩
        rw [d3, eA A hm1] at f1
        rw [d3, eA A2 hm2] at f2
        refine ⟨rfl, fun _ _ => ⟨f1, f2⟩, f3, fun y hy => ?_⟩
        by_cases hc : y = cpAddr
        · rw [hc, f4]
        · refine f5 y fun hy' => hy ?_
          simp only [List.mem_append, List.mem_cons, List.not_mem_nil, or_false] at hy' ⊢
          grind
  · intro j b b' h
    rw [h A hm1]
    by_cases h3' : (i.valM s).toNat = 3
    · rw [h A2 (hm3 h3')]; exact id
    · split
      · exact id
      · exact fun _ _ h => absurd h h3'
  · simp only [callOnly, List.mem_cons, List.mem_append, List.cons_append, List.append_nil] at hy ⊢; grind
  · rintro s' ⟨k1, k2, k3, k4⟩
    refine ⟨?_, k2, k3, k4.mono fun y hy => by simpa using hy⟩
    by_cases h : (i.valM s).toNat < 3
    · rw [if_pos (by omega)] at k1
      simp only [if_pos h] at k1 ⊢
      exact k1
    · simp only [if_neg h] at k1 ⊢
      by_cases e3 : (i.valM s).toNat = 3
      · rw [if_pos (by omega)] at k1
        rw [if_pos e3]
        exact k1 e3 e3
      · rw [if_neg (by omega)] at k1
        rw [if_neg e3]
        exact k1 A hm1

/-! ## The statements used at offset 3 -/

theorem ShlTo.ofComp {L : Layout} {I : Mem → Prop} {st : Stmt} {v k t n : Nat} {scr : List Nat} (h : CompI L I st (t + 348) (fun s => s (v + 348) * BitVec.ofNat 32 n) scr) (hn : n = 2 ^ k) :
    ShlTo L I st v k t scr := fun s hi => Does.mono (h s hi) fun s' e => ⟨by rw [e.1, hn, shl_mul], e.2⟩

/-- The call of `f_dwbreak`; the other four results go to temporaries. -/
theorem BrkTo.call {B : Brk} {L : Layout} (hw : L.Wf) {nptr fstart back v b0 b1 : Nat} {o : Nat → Nat} (hB : B.Ok L brkMask) (hO : CallOk L nptr (B.outs o) [(B.num + 348, .var v)] B.own)
    (hF : FuncCode L fstart B.fend nptr ((B.outs o).map Prod.fst) (B.body L)) (hback : back < 2 ^ 32)
    (hin : ∀ y ∈ B.kept, y ∉ nptr :: ((B.outs o).map (fun r => r.1 + 344) ++ [B.num + 348])) (hout : ∀ y ∈ B.kept, y ∉ (B.outs o).map Prod.snd ++ (B.outs o).map fun r => r.1 + 4)
    (h0 : o 2 = b0 + 348) (h1 : o 3 = b1 + 348) :
    BrkTo L B.Inv (.prim (CallRel L B.fend nptr back (B.body L) (B.outs o) [(B.num + 348, .var v)])) v b0 b1 (callOnly nptr (B.outs o) [(B.num + 348, .var v)] B.own) := by
  intro s hi
  refine Does.mono (C55_break hw hB hO hF hback hi hin hout) ?_
  rintro s' ⟨k1, k2, k3⟩
  have e0 := k1 2 (by decide)
  have e1 := k1 3 (by decide)
  rw [h0] at e0
  rw [h1] at e1
  refine ⟨?_, ?_, k2, k3⟩
  · rw [e0]; simp [brkPart, Src.valM]
  · rw [e1]; simp [brkPart, Src.valM]

end Eud.SC
