import Verif.Lib.PtrMem
import Verif.Lib.MemReadCp
/-
C32, C34: `f_dwread(ptr)` for a pointer in a variable (memio/ptrmemio.py:52-98), which need not be a multiple of four, and `f_dwwrite(ptr, dw)` (24-36).
-/

namespace Eud.SC

/-! ## Four bytes as parts of dwords -/

theorem ld4_aligned (m : Mem) {p : Nat} (hp : p < 2 ^ 32) (h : p % 4 = 0) : ldBytes m p 4 = (m (p / 4 * 4)).toNat := by
  have e : ∀ k < 4, (byteAt m (posB p k)).toNat = (m (p / 4 * 4)).toNat / 2 ^ (8 * k) % 256 := by
    intro k hk
    rw [byteAt_toNat, show posB p k / 4 * 4 = p / 4 * 4 by unfold posB; omega, show posB p k % 4 = k by unfold posB; omega]
  simp only [ldBytes]
  rw [e 0 (by omega), e 1 (by omega), e 2 (by omega), e 3 (by omega)]
  have w1 := (m (p / 4 * 4)).isLt
  generalize (m (p / 4 * 4)).toNat = a at *
  omega

theorem ld4_cross (m : Mem) {p i : Nat} (hp : p < 2 ^ 32) (h : p % 4 = i) (hi : 1 ≤ i) :
    ldBytes m p 4 = (m (p / 4 * 4)).toNat / 2 ^ (8 * i) % 2 ^ (32 - 8 * i) + (m ((p / 4 * 4 + 4) % 2 ^ 32)).toNat % 2 ^ (8 * i) * 2 ^ (32 - 8 * i) := by
  have e : ∀ k < 4, (byteAt m (posB p k)).toNat = if i + k < 4 then (m (p / 4 * 4)).toNat / 2 ^ (8 * (i + k)) % 256 else (m ((p / 4 * 4 + 4) % 2 ^ 32)).toNat / 2 ^ (8 * (i + k - 4)) % 256 := by
    intro k hk
    rw [byteAt_toNat]
    split
    · rw [show posB p k / 4 * 4 = p / 4 * 4 by unfold posB; omega, show posB p k % 4 = i + k by unfold posB; omega]
    · rw [show posB p k / 4 * 4 = (p / 4 * 4 + 4) % 2 ^ 32 by unfold posB; omega, show posB p k % 4 = i + k - 4 by unfold posB; omega]
  simp only [ldBytes]
  rw [e 0 (by omega), e 1 (by omega), e 2 (by omega), e 3 (by omega)]
  have w1 := (m (p / 4 * 4)).isLt
  have w2 := (m ((p / 4 * 4 + 4) % 2 ^ 32)).isLt
  generalize (m (p / 4 * 4)).toNat = a at *
  generalize (m ((p / 4 * 4 + 4) % 2 ^ 32)).toNat = b at *
  have hi' : i = 1 ∨ i = 2 ∨ i = 3 := by omega
  rcases hi' with rfl | rfl | rfl <;> simp <;> omega

/-! ## `_dwread` -/

/-- The variables, triggers and shared reader of `_dwread`. -/
structure DwRd where
  ptr : Nat
  dw : Nat
  subp : Nat
  fr : Nat
  rend : Nat
  cpc : Nat
  bk : Nat
  n1 : Nat
  nxt : Nat
  fend : Nat

/-- ptrmemio.py:69-73: the upper bits of the dword at the current player. -/
def dwHi (dw i : Nat) : List (Nat × List (Nat × W)) := (List.range (32 - 8 * i)).map fun j => (8 * i + j, [(dw + 348, BitVec.ofNat 32 (2 ^ (j + 0)))])

/-- ptrmemio.py:77-81: the lower bits of the next one. -/
def dwLo (dw i : Nat) : List (Nat × List (Nat × W)) := (List.range (8 * i)).map fun j => (0 + j, [(dw + 348, BitVec.ofNat 32 (2 ^ (j + (32 - 8 * i))))])

/-- ptrmemio.py:60-83: the cases. -/
def DwRd.case (R : DwRd) (L : Layout) : Nat → Stmt
  | 0 => .seq (.prim (CpRdRel L R.rend R.nxt (R.dw + 348) 0xFFFFFFFF 0 (.const 0) none)) .brk
  | i + 1 => .seq (.seqs ((dwHi R.dw (i + 1)).map (bitTrig 0))) (.seq (.asg [⟨cpAddr, .add, .const 1⟩]) (.seq (.seqs ((dwLo R.dw (i + 1)).map (bitTrig 0))) .brk))

/-- ptrmemio.py:52-87 `_dwread(ptr)`; `ptr -= c` adds `-c` (eudv.py:263-265). -/
def DwRd.body (R : DwRd) (L : Layout) (D : Div4) : Stmt :=
  .seq (.asg [⟨R.ptr + 348, .add, .const (-0x58A364)⟩]) (.seq (D.call L R.bk cpAddr (R.subp + 348) (.var R.ptr)) (.seq (.asg [⟨R.dw + 348, .set, .const 0⟩])
    (.seq (.prim (SwRel L (fun s => s (R.subp + 348)) (cases0 4 (R.case L)))) (.seq (cpBack L R.cpc R.n1) (retVar R.fr R.dw)))))

/-- The dwords it may change, besides those of the division. -/
def DwRd.vars (R : DwRd) : List Nat := [R.ptr + 348, R.dw + 348, R.subp + 348, R.fr + 348, cpAddr, R.rend + 4, R.rend + 344, R.rend + 348, R.cpc + 4, R.cpc + 344]

def DwRd.own (R : DwRd) (D : Div4) : List Nat := R.vars ++ D.own

structure DwRd.Ok (R : DwRd) (L : Layout) (D : Div4) : Prop where
  hD : Div4Ok L D
  hbk : R.bk < 2 ^ 32
  hp : R.ptr ∈ L.P.vars
  hd : R.dw ∈ L.P.vars
  cp : L.cell (R.ptr + 348)
  cd : L.cell (R.dw + 348)
  cf : L.cell (R.fr + 348)
  cc : L.cell cpAddr
  pc : PVar L R.cpc
  rd : RdCpOk L R.rend (R.dw + 348) (.const 0)
  hO : CallOk L D.np [(D.q, cpAddr), (D.a, R.subp + 348)] [(D.a + 348, .var R.ptr)] [D.a + 348, D.q + 348]
  nd : (R.vars ++ [R.cpc + 348, R.cpc + 352]).Nodup
  nD : ∀ y ∈ R.vars ++ [R.cpc + 348, R.cpc + 352], y ∉ D.own

theorem dwHi_sum (w : W) {dw i : Nat} (hi : 1 ≤ i) (x : Nat) : sumBitsC w x (dwHi dw i) = if x = dw + 348 then BitVec.ofNat 32 (w.toNat / 2 ^ (8 * i) % 2 ^ (32 - 8 * i)) else 0 := by
  split
  · rename_i h
    subst h
    unfold dwHi
    rw [sumBitsC_field _ _ (8 * i) 0 (fun j => [(dw + 348, BitVec.ofNat 32 (2 ^ (j + 0)))]) _ (fun j _ => by simp [sumC]), bitsum_shr _ (by omega), Nat.pow_zero, Nat.mul_one]
  · rename_i h
    refine sumBitsC_none _ _ _ fun t ht => ?_
    obtain ⟨j, -, rfl⟩ := List.mem_map.1 ht
    simp only [sumC, if_neg (Ne.symm h)]
    simp

theorem dwLo_sum (w : W) {dw i : Nat} (hi : i ≤ 4) (x : Nat) : sumBitsC w x (dwLo dw i) = if x = dw + 348 then BitVec.ofNat 32 (w.toNat % 2 ^ (8 * i) * 2 ^ (32 - 8 * i)) else 0 := by
  split
  · rename_i h
    subst h
    unfold dwLo
    rw [sumBitsC_field _ _ 0 (32 - 8 * i) (fun j => [(dw + 348, BitVec.ofNat 32 (2 ^ (j + (32 - 8 * i))))]) _ (fun j _ => by simp [sumC]), bitsum_shr _ (by omega), Nat.pow_zero, Nat.div_one]
  · rename_i h
    refine sumBitsC_none _ _ _ fun t ht => ?_
    obtain ⟨j, -, rfl⟩ := List.mem_map.1 ht
    simp only [sumC, if_neg (Ne.symm h)]
    simp

/-- The dwords that a case may change. -/
def DwRd.caseOwn (R : DwRd) : List Nat := [R.dw + 348, R.rend + 4, R.rend + 344, R.rend + 348, cpAddr]

/-- One case: the four bytes at `p` when the current player is at their dword. -/
theorem DwRd.case_does {R : DwRd} {L : Layout} {D : Div4} (h : R.Ok L D) {s : Mem} {p : Nat} (hp : p < 2 ^ 32) (hc : epdAddr (s cpAddr) = p / 4 * 4) (h0 : s (R.dw + 348) = 0) (h348 : s (R.rend + 348) = 0)
    (hA : ¬ L.priv (p / 4 * 4) ∧ p / 4 * 4 ∉ R.caseOwn) (hA2 : p % 4 ≠ 0 → ¬ L.priv ((p / 4 * 4 + 4) % 2 ^ 32) ∧ (p / 4 * 4 + 4) % 2 ^ 32 ∉ R.caseOwn) :
    Wp L (R.case L (p % 4)) s fun o s' => o = .brk ∧ s' (R.dw + 348) = BitVec.ofNat 32 (ldBytes s p 4) ∧ s' (R.rend + 348) = 0 ∧ Only R.caseOwn s s' := by
  have hno := h.rd.no
  have nd := h.rd.nd
  simp only [List.nodup_cons, List.mem_cons, not_or, List.not_mem_nil, not_false_eq_true, List.nodup_nil, and_true, or_false] at nd hno
  have qA := hA.2
  simp only [DwRd.caseOwn, List.mem_cons, not_or, List.not_mem_nil, not_false_eq_true, and_true] at qA
  cases hi : p % 4 with
  | zero =>
    have ev : epdAddr (s cpAddr + Src.valM s (.const 0)) = p / 4 * 4 := by
      rw [← hc]; simp [Src.valM]
    unfold DwRd.case
    refine Wp.seqN (Does.prim (s' := _) ⟨?_, ?_, rfl⟩ (Wp.brk ⟨rfl, ?_, ?_, ?_⟩))
    · rw [ev]; exact hA.1
    · rw [ev]
      simp only [List.mem_cons, not_or, List.not_mem_nil, not_false_eq_true, and_true]
      exact qA.2
    · rw [ev, ld4_aligned s hp hi]
      simp only [cpRdRes, if_true, Option.getD_none, h348]
      rw [w_zero_add]
      unfold readVal
      congr 1
      have w1 := (s (p / 4 * 4)).isLt
      rw [show (0xFFFFFFFF : Nat) = 2 ^ 32 - 1 from rfl, Nat.and_two_pow_sub_one_eq_mod, Nat.mod_eq_of_lt w1]
      simp [shl]
    · unfold cpRdRes; grind
    · intro x hx
      simp only [DwRd.caseOwn, List.mem_cons, not_or, List.not_mem_nil, not_false_eq_true, and_true] at hx
      unfold cpRdRes
      grind
  | succ i =>
    have hi4 : i + 1 < 4 := hi ▸ Nat.mod_lt _ (by omega)
    obtain ⟨pA2, qA2⟩ := hA2 (by omega)
    simp only [DwRd.caseOwn, List.mem_cons, not_or, List.not_mem_nil, not_false_eq_true, and_true] at qA2
    unfold DwRd.case
    refine Wp.seqN (Does.mono (bits_does (u := 0) (s := s) (by rw [cpAt0, hc]; exact hA.1) (dwHi R.dw (i + 1)) ?_) ?_)
    · intro t ht
      obtain ⟨j, hj, rfl⟩ := List.mem_map.1 ht
      rw [List.mem_range] at hj
      simp only [List.mem_singleton, forall_eq, cpAt0, hc]
      exact ⟨by omega, h.cd, hno.2.2.2, Ne.symm qA.1⟩
    · intro s1 e1
      rw [cpAt0, hc] at e1
      simp only [dwHi_sum _ (show 1 ≤ i + 1 by omega)] at e1
      refine Wp.seqN (Does.asg (by simpa using h.cc) (by simp) ?_)
      have er : runAsg [⟨cpAddr, .add, .const 1⟩] s1 = s1.set cpAddr (s1 cpAddr + 1) := by simp only [runAsg, arith, Src.valM]
      rw [er]
      have ec : s1 cpAddr = s cpAddr := by rw [e1, if_neg (Ne.symm hno.2.2.2)]; simp
      generalize hs2 : s1.set cpAddr (s1 cpAddr + 1) = s2
      have ea : Dst.addr s2 (.cp 0) = (p / 4 * 4 + 4) % 2 ^ 32 := by
        rw [cpAt0, ← hs2, set_eq, ec, epdAddr_next, hc]
      have ew : s2 ((p / 4 * 4 + 4) % 2 ^ 32) = s ((p / 4 * 4 + 4) % 2 ^ 32) := by
        rw [← hs2, set_ne qA2.2.2.2.2, e1, if_neg qA2.1]; simp
      refine Wp.seqN (Does.mono (bits_does (u := 0) (s := s2) (by rw [ea]; exact pA2) (dwLo R.dw (i + 1)) ?_) ?_)
      · intro t ht
        obtain ⟨j, hj, rfl⟩ := List.mem_map.1 ht
        rw [List.mem_range] at hj
        simp only [List.mem_singleton, forall_eq, ea]
        exact ⟨by omega, h.cd, hno.2.2.2, Ne.symm qA2.1⟩
      · intro s3 e3
        rw [ea, ew] at e3
        simp only [dwLo_sum _ (show i + 1 ≤ 4 by omega)] at e3
        refine Wp.brk ⟨rfl, ?_, ?_, ?_⟩
        · rw [e3, if_pos rfl, ← hs2, set_ne hno.2.2.2, e1, if_pos rfl, h0, w_zero_add, ← BitVec.ofNat_add, ← ld4_cross s hp hi (by omega)]
        · rw [e3, if_neg (Ne.symm hno.2.2.1), ← hs2, set_ne nd.2.2, e1, if_neg (Ne.symm hno.2.2.1), h348]; simp
        · intro x hx
          simp only [DwRd.caseOwn, List.mem_cons, not_or, List.not_mem_nil, not_false_eq_true, and_true] at hx
          rw [e3, if_neg hx.1, ← hs2, set_ne hx.2.2.2.2, e1, if_neg hx.1]
          simp

theorem ld4_congr {m m' : Mem} {p : Nat} (hp : p < 2 ^ 32) (h : m' (p / 4 * 4) = m (p / 4 * 4)) (h2 : p % 4 ≠ 0 → m' ((p / 4 * 4 + 4) % 2 ^ 32) = m ((p / 4 * 4 + 4) % 2 ^ 32)) :
    ldBytes m' p 4 = ldBytes m p 4 := by
  by_cases h0 : p % 4 = 0
  · rw [ld4_aligned _ hp h0, ld4_aligned _ hp h0, h]
  · rw [ld4_cross _ hp rfl (by omega), ld4_cross _ hp rfl (by omega), h, h2 h0]

/-- The body of `_dwread`. -/
theorem DwRd.body_wp {R : DwRd} {L : Layout} (hw : L.Wf) {D : Div4} (h : R.Ok L D) {s : Mem} (h348 : s (R.rend + 348) = 0) (hmc : s (R.cpc + 352) = pmod .set) {p : Nat} (hp : p = (s (R.ptr + 348)).toNat)
    (hA : ¬ L.priv (p / 4 * 4) ∧ p / 4 * 4 ∉ R.own D) (hA2 : p % 4 ≠ 0 → ¬ L.priv ((p / 4 * 4 + 4) % 2 ^ 32) ∧ (p / 4 * 4 + 4) % 2 ^ 32 ∉ R.own D) :
    Wp L (R.body L D) s fun o s' => (o = .nrm ∨ o = .ret) ∧ (s' (R.fr + 348) = BitVec.ofNat 32 (ldBytes s p 4) ∧ s' cpAddr = s (R.cpc + 348) ∧ s' (R.rend + 348) = 0) ∧ Only (R.own D) s s' := by
  have hlt : p < 2 ^ 32 := by rw [hp]; exact (s (R.ptr + 348)).isLt
  have nd := h.nd
  simp only [DwRd.vars, List.cons_append, List.nil_append, List.nodup_cons, List.mem_cons, not_or, List.not_mem_nil, not_false_eq_true, List.nodup_nil, and_true, or_false] at nd
  have sub : ∀ y ∈ R.caseOwn, y ∈ R.own D := by
    intro y hy
    simp only [DwRd.caseOwn, DwRd.own, DwRd.vars, List.cons_append, List.mem_cons, List.not_mem_nil, or_false] at hy ⊢
    grind
  have keep : ∀ y ∈ [R.rend + 348, R.cpc + 348, R.cpc + 352], y ∉ (R.ptr + 348) :: cpAddr :: (R.subp + 348) :: (R.dw + 348) :: D.own := by
    intro y hy hn
    have k : y ∈ R.vars ++ [R.cpc + 348, R.cpc + 352] := by
      simp only [DwRd.vars, List.cons_append, List.nil_append, List.mem_cons, List.not_mem_nil, or_false] at hy ⊢; grind
    have := h.nD y k
    simp only [List.mem_cons, List.not_mem_nil, or_false] at hy hn
    grind
  unfold DwRd.body
  refine Wp.seqN (Does.asg (by simpa using h.cp) (by simp) ?_)
  have er : runAsg [⟨R.ptr + 348, .add, .const (-0x58A364)⟩] s = s.set (R.ptr + 348) (s (R.ptr + 348) + -0x58A364) := by simp only [runAsg, arith, Src.valM]
  rw [er]
  generalize hs1 : s.set (R.ptr + 348) (s (R.ptr + 348) + -0x58A364) = s1
  have o1 : Only [R.ptr + 348] s s1 := hs1 ▸ (Only.refl _ s).set (by simp) _
  refine Wp.seqN (Does.mono (D.does hw h.hD h.hbk h.hO s1) ?_)
  rintro s2 ⟨k1, k2, o2⟩
  have e : (Src.valM s1 (.var R.ptr)).toNat = (p + (2 ^ 32 - 0x58A364)) % 2 ^ 32 := by
    show (s1 (R.ptr + 348)).toNat = _
    rw [← hs1, set_eq, BitVec.toNat_add, ← hp]; rfl
  rw [e] at k1 k2
  have a1 : epdAddr (s2 cpAddr) = p / 4 * 4 := by
    unfold epdAddr
    rw [k1]
    simp only [deathTable]
    omega
  have a2 : (s2 (R.subp + 348)).toNat = p % 4 := by omega
  refine Wp.seqN (Does.asg (by simpa using h.cd) (by simp) ?_)
  have er : runAsg [⟨R.dw + 348, .set, .const 0⟩] s2 = s2.set (R.dw + 348) 0 := by simp only [runAsg, arith, Src.valM]
  rw [er]
  generalize hs3 : s2.set (R.dw + 348) 0 = s3
  have o3 : Only ((R.ptr + 348) :: cpAddr :: (R.subp + 348) :: (R.dw + 348) :: D.own) s s3 := by
    refine Only.trans (s2 := s2) (Only.trans (s2 := s1) (o1.mono ?_) (o2.mono ?_)) (hs3 ▸ (Only.refl _ s2).set (by simp) _) <;> intro y hy <;>
      simp only [List.mem_cons, List.not_mem_nil, or_false] at hy ⊢ <;> grind
  have sub3 : ∀ y ∈ (R.ptr + 348) :: cpAddr :: (R.subp + 348) :: (R.dw + 348) :: D.own, y ∈ R.own D := by
    intro y hy
    simp only [DwRd.own, DwRd.vars, List.cons_append, List.nil_append, List.mem_cons] at hy ⊢
    grind
  have c3 : s3 cpAddr = s2 cpAddr := by rw [← hs3, set_ne (by grind)]
  have d3 : (s3 (R.subp + 348)).toNat = p % 4 := by rw [← hs3, set_ne (by grind), a2]
  have z3 : s3 (R.dw + 348) = 0 := by rw [← hs3, set_eq]
  have r3 : s3 (R.rend + 348) = 0 := by rw [o3 _ (keep _ (by simp)), h348]
  refine Wp.seqN (Does.sw ?_ ?_)
  · intro hl
    rw [cases0_lookup (by omega), if_pos (by omega)] at hl
    cases hl
  · intro st hl
    rw [cases0_lookup (by omega), if_pos (by omega), d3] at hl
    cases hl
    refine Wp.mono (DwRd.case_does h (s := s3) (p := p) hlt (by rw [c3, a1]) z3 r3 ⟨hA.1, fun hy => hA.2 (sub _ hy)⟩ (fun hh => ⟨(hA2 hh).1, fun hy => (hA2 hh).2 (sub _ hy)⟩)) ?_
    rintro o s4 ⟨rfl, f1, f2, f3⟩
    refine ⟨rfl, ?_⟩
    have kc : ∀ y ∈ [R.cpc + 348, R.cpc + 352], s4 y = s y := by
      intro y hy
      rw [f3 _ ?_, o3 _ (keep _ (by simp only [List.mem_cons, List.not_mem_nil, or_false] at hy ⊢; grind))]
      simp only [DwRd.caseOwn, List.mem_cons, List.not_mem_nil, or_false] at hy ⊢
      grind
    refine Wp.seqN (Does.mono (cpBack_does h.pc h.cc (by simp only [List.mem_cons, List.not_mem_nil, or_false, not_or]; grind) (by rw [kc _ (by simp), hmc])) ?_)
    rintro s5 ⟨g1, g2⟩
    refine Wp.seqN (Does.asg (by simpa using h.cf) (by simpa using h.hd) (Wp.ret ?_))
    have er : runAsg [⟨R.fr + 348, .set, .var R.dw⟩] s5 = s5.set (R.fr + 348) (s5 (R.dw + 348)) := by simp only [runAsg, arith, Src.valM]
    rw [er]
    have g3 : s5 (R.dw + 348) = s4 (R.dw + 348) := g2 _ (by simp only [cpBackScr, List.mem_cons, List.not_mem_nil, or_false, not_or]; grind)
    have g4 : s5 (R.rend + 348) = s4 (R.rend + 348) := g2 _ (by simp only [cpBackScr, List.mem_cons, List.not_mem_nil, or_false, not_or]; grind)
    refine ⟨Or.inr rfl, ⟨?_, ?_, ?_⟩, ?_⟩
    · rw [set_eq, g3, f1, ld4_congr hlt (o3 _ fun hy => hA.2 (sub3 _ hy)) (fun hh => o3 _ fun hy => (hA2 hh).2 (sub3 _ hy))]
    · rw [set_ne (by grind), g1, kc _ (by simp)]
    · rw [set_ne (by grind), g4, f2]
    · refine Only.trans (s2 := s5) (Only.trans (s2 := s4) (Only.trans (s2 := s3) (o3.mono sub3) (f3.mono sub)) (g2.mono ?_)) ((Only.refl _ s5).set ?_ _)
      · intro y hy
        simp only [cpBackScr, DwRd.own, DwRd.vars, List.cons_append, List.nil_append, List.mem_cons, List.not_mem_nil, or_false] at hy ⊢
        grind
      · simp [DwRd.own, DwRd.vars]

/-- **C32, dwords at a pointer.**  `f_dwread(ptr)` for a pointer in a variable, aligned or not: the result is the number whose bytes are the four bytes at `ptr`, for all memory contents.
The current player is restored from its cache; only variables of the library change. -/
theorem C32_dwread {R : DwRd} {L : Layout} (hw : L.Wf) {D : Div4} (h : R.Ok L D) {nptr fstart back o : Nat} {x : Src}
    (hO : CallOk L nptr [(R.fr, o)] [(R.ptr + 348, x)] (R.own D)) (hF : FuncCode L fstart R.fend nptr [R.fr] (R.body L D)) (hback : back < 2 ^ 32) {s : Mem}
    (h348 : s (R.rend + 348) = 0) (hmc : s (R.cpc + 352) = pmod .set) (hin : ∀ y ∈ [R.rend + 348, R.cpc + 348, R.cpc + 352], y ∉ [nptr, R.fr + 344, R.ptr + 348])
    (ho : cpAddr ∉ [o, R.fr + 4] ∧ R.rend + 348 ∉ [o, R.fr + 4]) {p : Nat} (hp : p = (x.valM s).toNat)
    (hA : ¬ L.priv (p / 4 * 4) ∧ p / 4 * 4 ∉ nptr :: (R.fr + 344) :: R.own D) (hA2 : p % 4 ≠ 0 → ¬ L.priv ((p / 4 * 4 + 4) % 2 ^ 32) ∧ (p / 4 * 4 + 4) % 2 ^ 32 ∉ nptr :: (R.fr + 344) :: R.own D) :
    Does L (.prim (CallRel L R.fend nptr back (R.body L D) [(R.fr, o)] [(R.ptr + 348, x)])) s fun s' =>
      s' o = BitVec.ofNat 32 (ldBytes s p 4) ∧ s' cpAddr = s (R.cpc + 348) ∧ s' (R.rend + 348) = 0 ∧ Only (callOnly nptr [(R.fr, o)] [(R.ptr + 348, x)] (R.own D)) s s' := by
  have hlt : p < 2 ^ 32 := by rw [hp]; exact (x.valM s).isLt
  have own : ∀ y ∉ nptr :: (R.fr + 344) :: R.own D, y ∉ [nptr, R.fr + 344, R.ptr + 348] ∧ y ∉ R.own D := by
    intro y hy
    simp only [DwRd.own, DwRd.vars, List.cons_append, List.mem_cons, List.not_mem_nil, or_false, not_or] at hy ⊢
    grind
  refine (C31_does hw hO hF hback (s := s) (Q := fun s2 => s2 (R.fr + 348) = BitVec.ofNat 32 (ldBytes s p 4) ∧ s2 cpAddr = s (R.cpc + 348) ∧ s2 (R.rend + 348) = 0) ?_).mono ?_
  · intro s1 e1 o1
    simp only [List.mem_singleton, forall_eq, List.map_cons, List.map_nil, List.cons_append, List.nil_append] at e1 o1
    refine Wp.mono (DwRd.body_wp hw h (s := s1) (p := p) (by rw [o1 _ (hin _ (by simp)), h348]) (by rw [o1 _ (hin _ (by simp)), hmc]) (by rw [e1, hp]) ⟨hA.1, (own _ hA.2).2⟩ (fun hh => ⟨(hA2 hh).1, (own _ (hA2 hh).2).2⟩)) ?_
    rintro o' s2 ⟨g0, ⟨g1, g2, g3⟩, g4⟩
    refine ⟨g0, ⟨?_, ?_, g3⟩, g4⟩
    · rw [g1, ld4_congr hlt (o1 _ (own _ hA.2).1) (fun hh => o1 _ (own _ (hA2 hh).2).1)]
    · rw [g2, o1 _ (hin _ (by simp))]
  · rintro s' ⟨⟨s2, ⟨g1, g2, g3⟩, g4, g5⟩, g6⟩
    simp only [List.mem_singleton, forall_eq, List.map_cons, List.map_nil, List.cons_append, List.nil_append] at g4 g5
    exact ⟨by rw [g4, g1], by rw [g5 _ ho.1, g2], by rw [g5 _ ho.2, g3], g6⟩

/-! ## `f_dwwrite` -/

/-- byterw.py:152-166: `seekoffset` of writer `i`. -/
def seekOp (i : Nat) : Src → BOp
  | .const c => .wseekC i c.toNat
  | .var v => .wseekV i (.var v)

/-- ptrmemio.py:28-36: `f_dwbreak(dw)`, whose bytes go to the variables `c`, then `seekoffset` and four times `writebyte`. -/
def dwWrite (L : Layout) (G : BCfg) (B : Brk) (nptr back : Nat) (o : Nat → Nat) (i : Nat) (x ptr : Src) (c n : Nat → Nat) : Stmt :=
  .seq (.prim (CallRel L B.fend nptr back (B.body L) (B.outs o) [(B.num + 348, x)]))
    (.seq ((seekOp i ptr).stmt L G (n 0)) (.seqs ((List.range' 0 4).map fun k => (BOp.writeV i (.var (c k))).stmt L G (n (k + 1)))))

theorem bytes_does {L : Layout} {G : BCfg} {br : Nat → Nat} (hG : G.Ok L br) {cp : W} {i : Nat} (hi : i < G.nw) {c n : Nat → Nat} {p : Nat} (hn : ∀ k, n k < 2 ^ 32)
    (hc : ∀ k < 4, SrcB L G (.var (c k)) ∧ ∀ j < 4, c k + 348 ≠ posB p j / 4 * 4) (hA : ∀ j < 4, EpdOK (posB p j / 4 * 4) ∧ L.cell (posB p j / 4 * 4) ∧ ¬ G.Int (posB p j / 4 * 4)) :
    ∀ (m k : Nat), k + m ≤ 4 → ∀ {σ : BSt} {s : Mem}, BRep G cp σ s → σ.wp i = posB p k →
      Does L (.seqs ((List.range' k m).map fun k => (BOp.writeV i (.var (c k))).stmt L G (n (k + 1)))) s fun s' => ∃ σ', BRep G cp σ' s' ∧
        (∀ q, byteAt σ'.m q = byteAt σ.m q ∨ ∃ j, k ≤ j ∧ j < k + m ∧ q = posB p j) ∧ (∀ j, k ≤ j → j < k + m → byteAt σ'.m (posB p j) = (σ.m (c j + 348)).setWidth 8) ∧
          ∀ y, (∀ j < 4, y ≠ posB p j / 4 * 4) → σ'.m y = σ.m y
  | 0, k, _, σ, s, h, _ => Does.skip ⟨σ, h, fun _ => Or.inl rfl, fun j h1 h2 => by omega, fun _ _ => rfl⟩
  | m + 1, k, hk, σ, s, h, hw => by
    have hA' := hA k (by omega)
    refine Does.seq ((C37_step hG h (hn (k + 1)) (.writeV i (.var (c k))) ⟨hi, (hc k (by omega)).1, by rw [hw]; exact hA'⟩).mono fun s1 h1 => ?_)
    have e1 : (BOp.spec (.writeV i (.var (c k))) σ).wp i = posB p (k + 1) := by simp only [BOp.spec, BHist.upd_self, hw, posB_next]
    have e2 : (BOp.spec (.writeV i (.var (c k))) σ).m = putByte σ.m (posB p k) ((σ.m (c k + 348)).setWidth 8) := by simp only [BOp.spec, hw]; rfl
    refine (bytes_does hG hi hn hc hA m (k + 1) (by omega) h1 e1).mono ?_
    rintro s' ⟨σ', g1, g2, g3, g4⟩
    rw [e2] at g2 g3 g4
    refine ⟨σ', g1, fun q => ?_, fun j h1 h2 => ?_, fun y hy => by rw [g4 y hy]; exact set_ne (hy k (by omega))⟩
    · rcases g2 q with hq | ⟨j, j1, j2, j3⟩
      · by_cases hqk : q = posB p k
        · exact Or.inr ⟨k, by omega, by omega, hqk⟩
        · rw [byteAt_put, if_neg hqk] at hq
          exact Or.inl hq
      · exact Or.inr ⟨j, by omega, by omega, j3⟩
    · by_cases hj : j = k
      · subst hj
        rcases g2 (posB p j) with hq | ⟨j', j1, j2, j3⟩
        · rw [hq, byteAt_put, if_pos rfl]
        · have := posB_inj (by omega) (by omega) j3
          omega
      · rw [g3 j (by omega) (by omega)]
        congr 1
        unfold putByte
        exact set_ne ((hc j (by omega)).2 k (by omega))

/-- **C34, dwords at a pointer.**  `f_dwwrite(ptr, dw)`, aligned or not: the four bytes at `ptr` become those of `dw`; no other byte changes, apart from the variables of `f_dwbreak` (`callOnly ..`)
and the shared byte writer (`G.Int`).  The writer and `f_dwbreak` can be used again; the current player stays. -/
theorem C34_dwwrite {L : Layout} (hw : L.Wf) {G : BCfg} {br : Nat → Nat} (hG : G.Ok L br) {cp : W} {σ : BSt} {s : Mem} (h : BRep G cp σ s) {i : Nat} (hi : i < G.nw) {B : Brk} {nptr fstart back : Nat} {x ptr : Src}
    {o c n : Nat → Nat} (hB : B.Ok L brkMask) (hO : CallOk L nptr (B.outs o) [(B.num + 348, x)] B.own) (hF : FuncCode L fstart B.fend nptr ((B.outs o).map Prod.fst) (B.body L)) (hback : back < 2 ^ 32) (hv : B.Inv s)
    (hin : ∀ y ∈ B.kept, y ∉ nptr :: ((B.outs o).map (fun r => r.1 + 344) ++ [B.num + 348])) (hout : ∀ y ∈ B.kept, y ∉ (B.outs o).map Prod.snd ++ (B.outs o).map fun r => r.1 + 4)
    (hoc : ∀ k < 4, o (k + 2) = c k + 348 ∧ c k ∈ L.P.vars) (hn : ∀ k, n k < 2 ^ 32) (hsep : ∀ y ∈ callOnly nptr (B.outs o) [(B.num + 348, x)] B.own, ¬ G.Int y)
    (hptr : SrcB L G ptr ∧ ∀ v, ptr = .var v → v + 348 ∉ callOnly nptr (B.outs o) [(B.num + 348, x)] B.own) {p : Nat} (hp : p = (ptr.valM s).toNat)
    (hA : ∀ j < 4, EpdOK (posB p j / 4 * 4) ∧ L.cell (posB p j / 4 * 4) ∧ ¬ G.Int (posB p j / 4 * 4) ∧ posB p j / 4 * 4 ∉ callOnly nptr (B.outs o) [(B.num + 348, x)] B.own) (hk : ∀ y ∈ B.kept, ¬ G.Int y ∧ ∀ j < 4, y ≠ posB p j / 4 * 4) :
    Does L (dwWrite L G B nptr back o i x ptr c n) s fun s' => (∃ σ', BRep G cp σ' s') ∧ B.Inv s' ∧ (∀ k < 4, byteAt s' (posB p k) = (x.valM s).extractLsb' (8 * k) 8) ∧
      ∀ q, ¬ G.Int (q / 4 * 4) → q / 4 * 4 ∉ callOnly nptr (B.outs o) [(B.num + 348, x)] B.own → (∀ k < 4, q ≠ posB p k) → byteAt s' q = byteAt s q := by
  have hlt : p < 2 ^ 32 := by rw [hp]; exact (ptr.valM s).isLt
  have hco : ∀ k < 4, c k + 348 ∈ callOnly nptr (B.outs o) [(B.num + 348, x)] B.own := by
    intro k hk
    have : (B.fr (k + 2), o (k + 2)) ∈ B.outs o := List.mem_map.2 ⟨k + 2, List.mem_range.2 (by omega), rfl⟩
    simp only [callOnly, List.mem_cons, List.mem_append, List.mem_map]
    exact Or.inr (Or.inl (Or.inl (Or.inl (Or.inl ⟨_, this, (hoc k hk).1⟩))))
  refine Does.seq ((C55_break hw hB hO hF hback hv hin hout).mono ?_)
  rintro s1 ⟨k1, k2, k3⟩
  have h1 : BRep G cp { σ with m := s1 } s1 := BHist.step h (fun _ => False) (fun b hb _ y hy => k3 y fun hm => hsep y hm ⟨b, hb, hy⟩) (by simp) (by intros; rfl) (by simp) (by intros; rfl) (by simp) (fun _ _ => rfl)
  have ep : ptr.valM s1 = ptr.valM s := Src.valM_only k3 hptr.2
  have key : Does L ((seekOp i ptr).stmt L G (n 0)) s1 fun s2 => ∃ σ2 : BSt, BRep G cp σ2 s2 ∧ σ2.m = s1 ∧ σ2.wp i = p := by
    cases ptr with
    | const a =>
      refine (C37_step hG h1 (hn 0) (.wseekC i a.toNat) ⟨hi, a.isLt⟩).mono fun s2 h2 => ⟨_, h2, rfl, ?_⟩
      simp only [BOp.spec, BHist.upd_self]
      exact hp.symm
    | var v =>
      refine (C37_step hG h1 (hn 0) (.wseekV i (.var v)) ⟨hi, hptr.1⟩).mono fun s2 h2 => ⟨_, h2, rfl, ?_⟩
      simp only [BOp.spec, BHist.upd_self]
      rw [hp, ← ep]
  refine Does.seq (key.mono ?_)
  rintro s2 ⟨σ2, h2, m2, w2⟩
  refine (bytes_does hG hi hn (fun k hk => ⟨fun v hv => ?_, fun j hj e => (hA j hj).2.2.2 (e ▸ hco k hk)⟩) (fun j hj => ⟨(hA j hj).1, (hA j hj).2.1, (hA j hj).2.2.1⟩) 4 0 (by omega) h2 (by rw [w2, posB_zero hlt])).mono ?_
  · cases hv
    exact ⟨(hoc k hk).2, hsep _ (hco k hk)⟩
  · rintro s' ⟨σ', g1, g2, g3, g4⟩
    rw [m2] at g2 g3 g4
    have vis : ∀ q, ¬ G.Int (q / 4 * 4) → byteAt s' q = byteAt σ'.m q := fun q hq => by unfold byteAt; rw [g1.vis _ hq]
    refine ⟨⟨σ', g1⟩, ?_, fun k hk => ?_, fun q q1 q2 q3 => ?_⟩
    · refine k2.only fun y hy => ?_
      obtain ⟨y1, y2⟩ := hk y hy
      rw [g1.vis y y1, g4 y y2]
    · rw [vis _ (hA k hk).2.2.1, g3 k (by omega) (by omega), ← (hoc k hk).1, k1 (k + 2) (by omega)]
      simp only [brkPart]
      apply BitVec.eq_of_toNat_eq
      rw [BitVec.toNat_setWidth, BitVec.toNat_ofNat, BitVec.extractLsb'_toNat, Nat.shiftRight_eq_div_pow]
      omega
    · rw [vis _ q1]
      rcases g2 q with hq | ⟨j, -, j2, j3⟩
      · rw [hq]
        unfold byteAt
        rw [k3 _ q2]
      · exact absurd j3 (q3 j (by omega))

end Eud.SC
