import Verif.Lib.WordWrite
import Verif.Lib.ByteBlock
import Verif.Lib.SubRead
import Verif.Lib.EpdVar
/-
C32, C34: the pointer forms (memio/ptrmemio.py): `f_bread`, `f_wread`, `f_bwrite`, `f_wwrite` for a pointer in a variable, in terms of the bytes of the memory.
-/

namespace Eud.SC

/-! ## Bytes of the memory, independent of dwords -/

/-- The `n` bytes at `p`, the low byte first, as a number. -/
def ldBytes (m : Mem) (p : Nat) : Nat → Nat
  | 0 => 0
  | n + 1 => ldBytes m p n + (byteAt m (posB p n)).toNat * 256 ^ n

/-- The `n` bytes at `p` are those of `x`, and every byte that is not in one of the dwords `own` is as before. -/
def StBytes (n p : Nat) (x : W) (own : List Nat) (m m' : Mem) : Prop :=
  (∀ k < n, byteAt m' (posB p k) = x.extractLsb' (8 * k) 8) ∧ ∀ a, a / 4 * 4 ∉ own → (∀ k < n, a ≠ posB p k) → byteAt m' a = byteAt m a

/-- The bytes of a field. -/
theorem FieldOp.byte {n i : Nat} {x w w' : W} (h : FieldOp .set n i x w w') (hn : i + n ≤ 4) {j : Nat} (hj : j < 4) :
    w'.extractLsb' (8 * j) 8 = if i ≤ j ∧ j < i + n then x.extractLsb' (8 * (j - i)) 8 else w.extractLsb' (8 * j) 8 := by
  apply BitVec.eq_of_getLsbD_eq
  intro k hk
  split
  · rename_i hij
    have e : ∀ b, (w'.extractLsb' (8 * i) (8 * n)).getLsbD b = (x.setWidth (8 * n)).getLsbD b := fun b => by rw [h.1]; rfl
    have e1 := e (8 * (j - i) + k)
    simp only [BitVec.getLsbD_extractLsb', BitVec.getLsbD_setWidth, show 8 * (j - i) + k < 8 * n by omega, decide_true, Bool.true_and,
      show 8 * i + (8 * (j - i) + k) = 8 * j + k by omega] at e1
    simp only [BitVec.getLsbD_extractLsb', hk, decide_true, Bool.true_and]
    exact e1
  · rename_i hij
    simp only [BitVec.getLsbD_extractLsb', hk, decide_true, Bool.true_and]
    exact h.2 _ (by omega)

/-- A field inside one dword. -/
theorem stBytes_one {n p : Nat} {x : W} {own : List Nat} {m m' : Mem} (hp : p < 2 ^ 32) (hn : p % 4 + n ≤ 4) (h : FieldOp .set n (p % 4) x (m (p / 4 * 4)) (m' (p / 4 * 4)))
    (ho : Only (p / 4 * 4 :: own) m m') : StBytes n p x own m m' := by
  refine ⟨fun k hk => ?_, fun a ha hne => ?_⟩
  · have e : posB p k = p + k := by unfold posB; omega
    unfold byteAt
    rw [e, show (p + k) / 4 * 4 = p / 4 * 4 by omega, show (p + k) % 4 = p % 4 + k by omega, h.byte hn (by omega), if_pos (by omega), show p % 4 + k - p % 4 = k by omega]
  · unfold byteAt
    by_cases hA : a / 4 * 4 = p / 4 * 4
    · rw [hA, h.byte hn (Nat.mod_lt _ (by omega)), if_neg]
      intro hc
      refine hne (a % 4 - p % 4) (by omega) ?_
      unfold posB
      omega
    · rw [ho _ (by simp only [List.mem_cons, not_or]; exact ⟨hA, ha⟩)]

/-- A word in two dwords. -/
theorem stBytes_two {p : Nat} {x : W} {own : List Nat} {m m' : Mem} (hp : p < 2 ^ 32) (hn : p % 4 = 3) (h : FieldOp .set 1 3 x (m (p / 4 * 4)) (m' (p / 4 * 4)))
    (h2 : FieldOp .set 1 0 (x >>> 8) (m ((p / 4 * 4 + 4) % 2 ^ 32)) (m' ((p / 4 * 4 + 4) % 2 ^ 32)))
    (ho : Only (p / 4 * 4 :: (p / 4 * 4 + 4) % 2 ^ 32 :: own) m m') : StBytes 2 p x own m m' := by
  have e0 : posB p 0 = p := posB_zero hp
  have e1 : posB p 1 / 4 * 4 = (p / 4 * 4 + 4) % 2 ^ 32 ∧ posB p 1 % 4 = 0 := by unfold posB; omega
  refine ⟨fun k hk => ?_, fun a ha hne => ?_⟩
  · have hk' : k = 0 ∨ k = 1 := by omega
    rcases hk' with rfl | rfl
    · rw [e0]
      unfold byteAt
      rw [hn, h.byte (by omega) (by omega), if_pos (by omega)]
    · unfold byteAt
      rw [e1.1, e1.2, h2.byte (by omega) (by omega), if_pos (by omega)]
      apply BitVec.eq_of_getLsbD_eq
      intro k hk
      simp only [BitVec.getLsbD_extractLsb', hk, decide_true, Bool.true_and, BitVec.getLsbD_ushiftRight]
      congr 1
      omega
  · unfold byteAt
    have n0 := hne 0 (by omega)
    have n1 := hne 1 (by omega)
    rw [e0] at n0
    by_cases hA : a / 4 * 4 = p / 4 * 4
    · rw [hA, h.byte (by omega) (Nat.mod_lt _ (by omega)), if_neg (by omega)]
    · by_cases hB : a / 4 * 4 = (p / 4 * 4 + 4) % 2 ^ 32
      · rw [hB, h2.byte (by omega) (Nat.mod_lt _ (by omega)), if_neg (by omega)]
      · rw [ho _ (by simp only [List.mem_cons, not_or]; exact ⟨hA, hB, ha⟩)]

theorem byteAt_toNat (m : Mem) (a : Nat) : (byteAt m a).toNat = (m (a / 4 * 4)).toNat / 2 ^ (8 * (a % 4)) % 256 := by
  unfold byteAt
  rw [BitVec.extractLsb'_toNat, Nat.shiftRight_eq_div_pow]

/-- What `f_bread_epd` and `f_wread_epd` give, as bytes. -/
theorem subVal_bytes {n p : Nat} (m : Mem) (hp : p < 2 ^ 32) (hn : n = 1 ∨ n = 2) :
    subVal n (p % 4) (m (p / 4 * 4)) (m ((p / 4 * 4 + 4) % 2 ^ 32)) = BitVec.ofNat 32 (ldBytes m p n) := by
  have e0 : posB p 0 = p := posB_zero hp
  unfold subVal
  congr 1
  have hr : p % 4 = 0 ∨ p % 4 = 1 ∨ p % 4 = 2 ∨ p % 4 = 3 := by omega
  have w1 := (m (p / 4 * 4)).isLt
  have w2 := (m ((p / 4 * 4 + 4) % 2 ^ 32)).isLt
  rcases hn with rfl | rfl
  · simp only [ldBytes, e0, byteAt_toNat]
    generalize (m (p / 4 * 4)).toNat = a at *
    generalize (m ((p / 4 * 4 + 4) % 2 ^ 32)).toNat = b at *
    rcases hr with h | h | h | h <;> rw [h] <;> omega
  · simp only [ldBytes, e0, byteAt_toNat]
    by_cases h3 : p % 4 = 3
    · have e1 : posB p 1 / 4 * 4 = (p / 4 * 4 + 4) % 2 ^ 32 ∧ posB p 1 % 4 = 0 := by unfold posB; omega
      rw [e1.1, e1.2, h3]
      generalize (m (p / 4 * 4)).toNat = a at *
      generalize (m ((p / 4 * 4 + 4) % 2 ^ 32)).toNat = b at *
      omega
    · have e1 : posB p 1 / 4 * 4 = p / 4 * 4 ∧ posB p 1 % 4 = p % 4 + 1 := by unfold posB; omega
      rw [e1.1, e1.2]
      generalize (m (p / 4 * 4)).toNat = a at *
      generalize (m ((p / 4 * 4 + 4) % 2 ^ 32)).toNat = b at *
      rcases hr with h | h | h | h <;> rw [h] <;> omega

/-! ## `_ptr2epd` -/

/-- ptrmemio.py:16-21 `_ptr2epd(ptr)` for a variable: `ptr + (-0x58A364)` in the temporary `t`, then `f_div(.., 4)` into `eo` and `so`. -/
def ptr2epd (L : Layout) (D : Div4) (bk t x eo so : Nat) : Stmt := .seq (opAdd t x (.const (-0x58A364))) (D.call L bk (eo + 348) (so + 348) (.var t))

/-- What it may change. -/
def ptrOwn (D : Div4) (t eo so : Nat) : List Nat := (t + 348) :: (eo + 348) :: (so + 348) :: D.own

structure PtrOk (L : Layout) (D : Div4) (bk t x eo so : Nat) : Prop where
  hD : Div4Ok L D
  hb : bk < 2 ^ 32
  ht : t ∈ L.P.vars
  hx : x ∈ L.P.vars
  ne : t ≠ x
  hO : CallOk L D.np [(D.q, eo + 348), (D.a, so + 348)] [(D.a + 348, .var t)] [D.a + 348, D.q + 348]

theorem ptr2epd_does {L : Layout} (hw : L.Wf) {D : Div4} {bk t x eo so : Nat} (h : PtrOk L D bk t x eo so) (s : Mem) :
    Does L (ptr2epd L D bk t x eo so) s fun s' => epdAddr (s' (eo + 348)) = (s (x + 348)).toNat / 4 * 4 ∧ epdAddr (s' (eo + 348) + 1) = ((s (x + 348)).toNat / 4 * 4 + 4) % 2 ^ 32 ∧
      (s' (so + 348)).toNat = (s (x + 348)).toNat % 4 ∧ Only (ptrOwn D t eo so) s s' := by
  refine Does.seq ((C53_add hw h.ht h.hx (y := .const (-0x58A364)) (by simp) h.ne s).mono ?_)
  rintro s1 ⟨g1, g2⟩
  refine (D.does hw h.hD h.hb h.hO s1).mono ?_
  rintro s2 ⟨k1, k2, k3⟩
  simp only [Src.valM] at g1
  simp only [show Src.valM s1 (.var t) = s1 (t + 348) from rfl] at k1 k2
  rw [g1] at k1 k2
  have hlt := (s (x + 348)).isLt
  have e : (s (x + 348) + -0x58A364).toNat = ((s (x + 348)).toNat + (2 ^ 32 - 0x58A364)) % 2 ^ 32 := by
    rw [BitVec.toNat_add]; rfl
  rw [e] at k1 k2
  have a1 : epdAddr (s2 (eo + 348)) = (s (x + 348)).toNat / 4 * 4 := by
    unfold epdAddr
    rw [k1]
    simp only [deathTable]
    omega
  refine ⟨a1, by rw [epdAddr_next, a1], by omega, Only.trans (g2.mono ?_) (k3.mono ?_)⟩ <;> intro y hy <;> simp only [ptrOwn, List.mem_cons, List.not_mem_nil, or_false] at hy ⊢ <;> grind

theorem Src.valM_only {l : List Nat} {s s' : Mem} (h : Only l s s') {x : Src} (hx : ∀ v, x = .var v → v + 348 ∉ l) : x.valM s' = x.valM s := by
  cases x with
  | const c => rfl
  | var v => exact h _ (hx v rfl)

theorem WrHyp.only {L : Layout} {nptr ev sv wv cpc : Nat} {rs : List (Nat × Nat)} {e i x : Src} {As scr tscr : List Nat} {s s' : Mem} (h : WrHyp L nptr ev sv wv cpc rs e i x As scr tscr s)
    (h1 : s' (ev + 352) = s (ev + 352)) (h2 : s' (cpc + 352) = s (cpc + 352)) : WrHyp L nptr ev sv wv cpc rs e i x As scr tscr s' :=
  ⟨h.ok, h.vars, h1.trans h.me, h2.trans h.mc, h.nA, h.cp, h.cc, h.ee, h.sv, h.wv⟩

/-! ## Writing -/

/-- **C34, bytes at a pointer.**  `f_bwrite(ptr, b)` sets the byte at `ptr` to the low byte of `b`; no other byte changes, apart from variables of the library.  The current player is restored. -/
theorem C34_bwrite {L : Layout} (hw : L.Wf) {D : Div4} {bk t ptr eo so : Nat} (hP : PtrOk L D bk t ptr eo so) {fend nptr fstart back ev sv wv cpc n1 n2 : Nat} {sh : Nat → Stmt} {tv p : Nat → Nat} {tail : Stmt}
    {rs : List (Nat × Nat)} {b : Src} {I : Mem → Prop} {scr tscr : List Nat}
    (hsh : ∀ j < 4, ShlTo L I (sh j) wv (8 * j) (tv j) scr ∧ tv j ∈ L.P.vars ∧ L.cell (p j + 20) ∧ p j + 20 ∈ scr ∧ tv j + 348 ∈ scr)
    (htl : ∀ s3, Wp L tail s3 fun o s' => (o = .nrm ∨ o = .ret) ∧ Only tscr s3 s') {s : Mem} {A : Nat} (hA : A = (s (ptr + 348)).toNat / 4 * 4)
    (hh : WrHyp L nptr ev sv wv cpc rs (.var eo) (.var so) b [A] scr tscr s)
    (hF : FuncCode L fstart fend nptr (rs.map Prod.fst) (wrBody L ev sv cpc n1 n2 (cases0 4 fun j => wrCase .set 1 (sh j) (tv j) (p j) j) tail)) (hback : back < 2 ^ 32) (hi : I s)
    (hI : ∀ s1 s', Only (callOnly nptr rs [(ev + 348, .var eo), (sv + 348, .var so), (wv + 348, b)] (A :: wrOwn ev cpc ++ tscr ++ (List.range 4).map fun j => p j + 20)) s1 s' → I s1 → I s')
    (hIp : ∀ s1 s', Only (ptrOwn D t eo so) s1 s' → I s1 → I s') (hb : ∀ v, b = .var v → v + 348 ∉ ptrOwn D t eo so) (hs : ∀ y ∈ [ev + 352, cpc + 352, cpc + 348, A], y ∉ ptrOwn D t eo so) :
    Does L (.seq (ptr2epd L D bk t ptr eo so)
      (.prim (CallRel L fend nptr back (wrBody L ev sv cpc n1 n2 (cases0 4 fun j => wrCase .set 1 (sh j) (tv j) (p j) j) tail) rs [(ev + 348, .var eo), (sv + 348, .var so), (wv + 348, b)]))) s fun s' =>
      StBytes 1 (s (ptr + 348)).toNat (b.valM s) (ptrOwn D t eo so ++ callOnly nptr rs [(ev + 348, .var eo), (sv + 348, .var so), (wv + 348, b)] (wrOwn ev cpc ++ scr ++ tscr)) s s' ∧
        s' cpAddr = s (cpc + 348) ∧ I s' ∧ Only (A :: ptrOwn D t eo so ++ callOnly nptr rs [(ev + 348, .var eo), (sv + 348, .var so), (wv + 348, b)] (wrOwn ev cpc ++ scr ++ tscr)) s s' := by
  refine Does.seq ((ptr2epd_does hw hP s).mono ?_)
  rintro s1 ⟨e1, -, e3, e4⟩
  have hlt := (s (ptr + 348)).isLt
  have eA : epdAddr (Src.valM s1 (.var eo)) = A := by rw [hA]; exact e1
  refine (C34_bytes hw (e := .var eo) (i := .var so) (x := b) (s := s1) (md := .set) (nb := 1) (k := 4) (by omega) hsh htl (by
    rw [eA]; exact hh.only (e4 _ (hs _ (by simp))) (e4 _ (hs _ (by simp)))) hF hback (hIp _ _ e4 hi) (by rw [eA]; exact hI)).mono ?_
  rintro s' ⟨f1, f2, f3, f4⟩
  have vi : (Src.valM s1 (.var so)).toNat = (s (ptr + 348)).toNat % 4 := e3
  have oo : Only (A :: (ptrOwn D t eo so ++ callOnly nptr rs [(ev + 348, .var eo), (sv + 348, .var so), (wv + 348, b)] (wrOwn ev cpc ++ scr ++ tscr))) s s' := by
    refine Only.trans (e4.mono fun y hy => ?_) (f4.mono fun y hy => ?_)
    · simp only [List.mem_cons, List.mem_append]; exact .inr (.inl hy)
    · rw [eA] at hy
      simp only [callOnly, List.mem_cons, List.mem_append, List.cons_append] at hy ⊢
      grind
  rw [vi, if_pos (Nat.mod_lt _ (by omega)), eA, Src.valM_only e4 hb, e4 A (hs _ (by simp))] at f1
  refine ⟨?_, by rw [f2, e4 _ (hs _ (by simp))], f3, oo⟩
  rw [hA] at f1 oo
  exact stBytes_one hlt (by omega) f1 oo

/-- **C34, words at a pointer.**  `f_wwrite(ptr, w)` sets the two bytes at `ptr` to the lower word of `w`, also when they lie in two dwords; no other byte changes, apart from variables of the library. -/
theorem C34_wwrite {L : Layout} (hw : L.Wf) {D : Div4} {bk t ptr eo so : Nat} (hP : PtrOk L D bk t ptr eo so) {fend nptr fstart back ev sv wv cpc n1 n2 : Nat} {sh : Nat → Stmt} {tv p : Nat → Nat}
    {br m0 m1 : Stmt} {b0 b1 t0 t1 p0 p1 : Nat} {w : Src} {I : Mem → Prop} {scr : List Nat}
    (hsh : ∀ j < 3, ShlTo L I (sh j) wv (8 * j) (tv j) scr ∧ tv j ∈ L.P.vars ∧ L.cell (p j + 20) ∧ p j + 20 ∈ scr ∧ tv j + 348 ∈ scr)
    (h3 : Ww3 L I br m0 m1 wv b0 b1 t0 t1 p0 p1 scr) {s : Mem} {As : List Nat}
    (hAs : As = if (s (ptr + 348)).toNat % 4 = 3 then [(s (ptr + 348)).toNat / 4 * 4, ((s (ptr + 348)).toNat / 4 * 4 + 4) % 2 ^ 32] else [(s (ptr + 348)).toNat / 4 * 4])
    (hh : WrHyp L nptr ev sv wv cpc [] (.var eo) (.var so) w As scr [] s)
    (hF : FuncCode L fstart fend nptr [] (wrBody L ev sv cpc n1 n2 (cases0 4 (wwCases sh tv p (wwCase3 br m0 m1 t0 t1 p0 p1))) .skip)) (hback : back < 2 ^ 32) (hi : I s)
    (hI : ∀ s1 s', Only (callOnly nptr [] [(ev + 348, .var eo), (sv + 348, .var so), (wv + 348, w)] (As ++ wrOwn ev cpc ++ [p0 + 20, p1 + 20] ++ (List.range 3).map fun j => p j + 20)) s1 s' → I s1 → I s')
    (hIp : ∀ s1 s', Only (ptrOwn D t eo so) s1 s' → I s1 → I s') (hb : ∀ v, w = .var v → v + 348 ∉ ptrOwn D t eo so) (hs : ∀ y ∈ [ev + 352, cpc + 352, cpc + 348] ++ As, y ∉ ptrOwn D t eo so) :
    Does L (.seq (ptr2epd L D bk t ptr eo so)
      (.prim (CallRel L fend nptr back (wrBody L ev sv cpc n1 n2 (cases0 4 (wwCases sh tv p (wwCase3 br m0 m1 t0 t1 p0 p1))) .skip) [] [(ev + 348, .var eo), (sv + 348, .var so), (wv + 348, w)]))) s fun s' =>
      StBytes 2 (s (ptr + 348)).toNat (w.valM s) (ptrOwn D t eo so ++ callOnly nptr [] [(ev + 348, .var eo), (sv + 348, .var so), (wv + 348, w)] (wrOwn ev cpc ++ scr)) s s' ∧
        s' cpAddr = s (cpc + 348) ∧ I s' ∧ Only (As ++ (ptrOwn D t eo so ++ callOnly nptr [] [(ev + 348, .var eo), (sv + 348, .var so), (wv + 348, w)] (wrOwn ev cpc ++ scr))) s s' := by
  refine Does.seq ((ptr2epd_does hw hP s).mono ?_)
  rintro s1 ⟨e1, e2, e3, e4⟩
  have hlt := (s (ptr + 348)).isLt
  have eA : epdAddr (Src.valM s1 (.var eo)) = (s (ptr + 348)).toNat / 4 * 4 := e1
  have eB : epdAddr (Src.valM s1 (.var eo) + 1) = ((s (ptr + 348)).toNat / 4 * 4 + 4) % 2 ^ 32 := e2
  have vi : (Src.valM s1 (.var so)).toNat = (s (ptr + 348)).toNat % 4 := e3
  refine (C34_word hw (e := .var eo) (i := .var so) (x := w) (s := s1) (As := As) hsh h3 (by rw [vi, eA, eB]; exact hAs) (hh.only (e4 _ (hs _ (by simp))) (e4 _ (hs _ (by simp)))) hF hback (hIp _ _ e4 hi) hI).mono ?_
  rintro s' ⟨f1, f2, f3, f4⟩
  have oo : Only (As ++ (ptrOwn D t eo so ++ callOnly nptr [] [(ev + 348, .var eo), (sv + 348, .var so), (wv + 348, w)] (wrOwn ev cpc ++ scr))) s s' := by
    refine Only.trans (e4.mono fun y hy => ?_) (f4.mono fun y hy => ?_)
    · simp only [List.mem_append]; exact .inr (.inl hy)
    · simp only [callOnly, List.mem_cons, List.mem_append, List.cons_append, List.nil_append] at hy ⊢
      grind
  have kA : ∀ A ∈ As, s1 A = s A := fun A hA => e4 A (hs A (by simp [hA]))
  rw [vi, eA, eB, Src.valM_only e4 hb] at f1
  refine ⟨?_, by rw [f2, e4 _ (hs _ (by simp))], f3, oo⟩
  generalize (s (ptr + 348)).toNat = q at *
  by_cases h3 : q % 4 = 3
  · rw [if_pos h3] at hAs
    rw [if_neg (by omega), if_pos h3, kA _ (by simp [hAs]), kA _ (by simp [hAs])] at f1
    rw [hAs] at oo
    exact stBytes_two hlt h3 f1.1 f1.2 oo
  · rw [if_neg h3] at hAs
    rw [if_pos (by omega), kA _ (by simp [hAs])] at f1
    rw [hAs] at oo
    exact stBytes_one hlt (by omega) f1 oo

/-! ## Reading -/

/-- **C32, bytes and words at a pointer.**  `f_bread(ptr)` (`nb = 1`) and `f_wread(ptr)` (`nb = 2`) give the bytes at `ptr`, also when they lie in two dwords, and restore the current player. -/
theorem C32_ptr {S : SubRd} {L : Layout} (hw : L.Wf) {D : Div4} {bk t ptr eo so : Nat} (hP : PtrOk L D bk t ptr eo so) {nb nptr fstart back o : Nat} {args : List (Nat × Src)} (hS : S.Ok L) (hb : nb = 1 ∨ nb = 2)
    (he : (cpAddr, .var eo) ∈ args) (hi : (S.sv + 348, .var so) ∈ args)
    (hO : CallOk L nptr [(S.bv, o)] args (S.own ++ [S.rend + 352])) (hF : FuncCode L fstart S.fend nptr [S.bv] (S.body L nb)) (hback : back < 2 ^ 32) {s : Mem}
    (h352 : s (S.rend + 352) = pmod .set) (h348 : s (S.rend + 348) = 0) (hc : s (S.cpc + 352) = pmod .set)
    (hin : ∀ x ∈ [S.rend + 352, S.rend + 348, S.cpc + 348, S.cpc + 352], x ∉ nptr :: (S.bv + 344) :: args.map Prod.fst)
    (ho : cpAddr ≠ o ∧ cpAddr ≠ S.bv + 4 ∧ S.rend + 352 ≠ o ∧ S.rend + 352 ≠ S.bv + 4 ∧ S.rend + 348 ≠ o ∧ S.rend + 348 ≠ S.bv + 4) {A A2 : Nat} (hA : A = (s (ptr + 348)).toNat / 4 * 4)
    (hA2 : A2 = (A + 4) % 2 ^ 32) (hs : ∀ y ∈ [S.rend + 352, S.rend + 348, S.cpc + 352, S.cpc + 348], y ∉ ptrOwn D t eo so)
    (hp : ¬ L.priv A ∧ A ∉ nptr :: (S.bv + 344) :: args.map Prod.fst ++ S.own ++ ptrOwn D t eo so)
    (hp2 : 4 < (s (ptr + 348)).toNat % 4 + nb → ¬ L.priv A2 ∧ A2 ∉ nptr :: (S.bv + 344) :: args.map Prod.fst ++ S.own ++ [S.rend + 352] ++ ptrOwn D t eo so) :
    Does L (.seq (ptr2epd L D bk t ptr eo so) (.prim (CallRel L S.fend nptr back (S.body L nb) [(S.bv, o)] args))) s fun s' =>
      s' o = BitVec.ofNat 32 (ldBytes s (s (ptr + 348)).toNat nb) ∧ s' cpAddr = s (S.cpc + 348) ∧ s' (S.rend + 348) = 0 ∧ s' (S.rend + 352) = pmod .set ∧
        Only (ptrOwn D t eo so ++ callOnly nptr [(S.bv, o)] args (S.own ++ [S.rend + 352])) s s' := by
  refine Does.seq ((ptr2epd_does hw hP s).mono ?_)
  rintro s1 ⟨e1, e2, e3, e4⟩
  have hlt := (s (ptr + 348)).isLt
  have eA : epdAddr (Src.valM s1 (.var eo)) = A := by rw [hA]; exact e1
  have eB : epdAddr (Src.valM s1 (.var eo) + 1) = A2 := by rw [hA2, hA]; exact e2
  have vi : (Src.valM s1 (.var so)).toNat = (s (ptr + 348)).toNat % 4 := e3
  have hq := hp.2
  simp only [List.mem_append, not_or] at hq
  refine (C32_sub hw hS hb he hi hO hF hback (s := s1) (by rw [vi]; omega) (by rw [e4 _ (hs _ (by simp)), h352]) (by rw [e4 _ (hs _ (by simp)), h348]) (by rw [e4 _ (hs _ (by simp)), hc]) hin ho
    (by rw [eA]; exact ⟨hp.1, by simp only [List.mem_append, not_or]; exact hq.1⟩) (by
      rw [eB, vi]
      intro h
      have := (hp2 h).2
      simp only [List.mem_append, not_or] at this
      exact ⟨(hp2 h).1, by simp only [List.mem_append, not_or]; exact this.1⟩)).mono ?_
  rintro s' ⟨f1, f2, f3, f4, f5⟩
  rw [vi, eA, eB, e4 A hq.2] at f1
  refine ⟨?_, by rw [f2, e4 _ (hs _ (by simp))], f3, f4, Only.trans (e4.mono fun y hy => List.mem_append_left _ hy) (f5.mono fun y hy => List.mem_append_right _ hy)⟩
  by_cases h : 4 < (s (ptr + 348)).toNat % 4 + nb
  · have := (hp2 h).2
    simp only [List.mem_append, not_or] at this
    rw [f1, e4 A2 this.2, ← subVal_bytes s hlt hb, hA2, hA]
  · rw [f1, ← subVal_bytes s hlt hb, hA, ← subVal_one (w2 := s1 A2) (by omega), subVal_one (w2 := s (((s (ptr + 348)).toNat / 4 * 4 + 4) % 2 ^ 32)) (by omega)]

end Eud.SC
