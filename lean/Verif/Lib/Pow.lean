import Verif.Lib.MulCall
import Verif.Lib.Compare
/-
C44: powers (eudlib/mathf/pow.py).
-/

namespace Eud.SC

variable {L : Layout}

/-- A condition at `p` whose mask is looked up when it runs. -/
def cMemM (a : Nat) (c : Cmp) (k : W) (p : Nat) : PC := ⟨.check (some (.mem a)) c (some k) none, some p⟩

@[simp] theorem cMemM_holds (s : Mem) (a : Nat) (c : Cmp) (k : W) (p : Nat) : (cMemM a c k p).holds s = compare c (s a &&& s p) k := by
  simp only [PC.holds, cMemM, SCnd.res, Option.getD_some, Option.getD_none, Cnd.holds, Dst.addr]

theorem cMemM_ok {a : Nat} (h : L.cell a) (s : Mem) (c : Cmp) (k : W) (p : Nat) : (cMemM a c k p).Ok L s := ⟨trivial, h.2⟩

/-- pow.py:17-24: the loop.  `n` is `_2n`; `c1`, `c2` are the conditions `_2n <= b` and `b.AtLeastX(1, _2n)`, whose variable parts are filled in before
(trigger/tpatcher.py:34-77); `mul1`, `mul2` are the calls `ret *= a` and `a *= a`. -/
def powLoop (b n c1 c2 : Nat) (mul1 mul2 : Stmt) : Stmt :=
  .loop false (.asg [⟨c1 + 8, .set, .var b⟩]) [cMemV (n + 348) .atMost c1]
    (.seqs [.ite (.asg [⟨c2, .set, .var n⟩]) [cMemM (b + 348) .atLeast 1 c2] mul1 .skip, .asg [⟨n + 348, .add, .var n⟩], mul2]) .skip

/-- pow.py:12-25 `_pow` -/
def eudPow (b ret n c1 c2 r0 : Nat) (mul1 mul2 : Stmt) : Stmt :=
  .seq (.asg [⟨ret + 348, .set, .const 1⟩, ⟨n + 348, .set, .const 1⟩])
    (.seq (powLoop b n c1 c2 mul1 mul2) (.seq (.asg [⟨r0 + 348, .set, .var ret⟩]) .ret))

/-- The variables of the function, the calls of the multiplication it makes, and what they do. -/
structure PowOk (L : Layout) (I : Mem → Prop) (a b ret n c1 c2 r0 : Nat) (mul1 mul2 : Stmt) (scr1 scr2 : List Nat) : Prop where
  vb : b ∈ L.P.vars
  vr : ret ∈ L.P.vars
  vn : n ∈ L.P.vars
  cn : L.cell (n + 348)
  cb : L.cell (b + 348)
  cr : L.cell (ret + 348)
  cc1 : L.cell (c1 + 8)
  cc2 : L.cell c2
  c0 : L.cell (r0 + 348)
  nd : [a + 348, b + 348, ret + 348, n + 348, c1 + 8, c2].Nodup
  m1 : CompI L I mul1 (ret + 348) (fun s => s (ret + 348) * s (a + 348)) scr1
  m2 : CompI L I mul2 (a + 348) (fun s => s (a + 348) * s (a + 348)) scr2
  sc1 : ∀ x ∈ [a + 348, b + 348, n + 348], x ∉ scr1
  sc2 : ∀ x ∈ [b + 348, ret + 348, n + 348], x ∉ scr2
  hI : ∀ s s', Only [ret + 348, n + 348, c1 + 8, c2, r0 + 348] s s' → I s → I s'

/-- The dwords a power may change. -/
def powOnly (a ret n c1 c2 r0 : Nat) (scr : List Nat) : List Nat := [r0 + 348, a + 348, ret + 348, n + 348, c1 + 8, c2] ++ scr

theorem mod_pow_succ (b k : Nat) : b % 2 ^ (k + 1) = b % 2 ^ k + (if b.testBit k then 2 ^ k else 0) := by
  have h := Nat.mod_mul (a := 2 ^ k) (b := 2) (x := b)
  rw [← Nat.pow_succ] at h
  have h1 := Nat.mod_lt b (show 0 < 2 ^ k from Nat.two_pow_pos k)
  rw [h, Nat.testBit_eq_decide_div_mod_eq]
  rcases Nat.mod_two_eq_zero_or_one (b / 2 ^ k) with h2 | h2 <;> rw [h2] <;> simp

section
variable {I : Mem → Prop} {a b ret n c1 c2 r0 : Nat} {mul1 mul2 : Stmt} {scr1 scr2 : List Nat}

/-- What a round does, whatever `_2n` is. -/
structure PowStep (I : Mem → Prop) (a b ret n : Nat) (only : List Nat) (s s' : Mem) : Prop where
  hI : I s'
  hb : s' (b + 348) = s (b + 348)
  hn : s' (n + 348) = s (n + 348) + s (n + 348)
  ha : s' (a + 348) = s (a + 348) * s (a + 348)
  hr : s' (ret + 348) = (if compare .atLeast (s (b + 348) &&& s (n + 348)) 1 then s (ret + 348) * s (a + 348) else s (ret + 348))
  only : Only only s s'

theorem pow_round (h : PowOk L I a b ret n c1 c2 r0 mul1 mul2 scr1 scr2) {s : Mem}
    (hI : I s) : Does L (.seqs [.ite (.asg [⟨c2, .set, .var n⟩]) [cMemM (b + 348) .atLeast 1 c2] mul1 .skip, .asg [⟨n + 348, .add, .var n⟩], mul2]) s
      (PowStep I a b ret n (powOnly a ret n c1 c2 r0 (scr1 ++ scr2)) s) := by
  have nd := h.nd
  simp only [List.nodup_cons, List.mem_cons, List.not_mem_nil, or_false, not_or, not_false_eq_true, List.nodup_nil, and_true] at nd
  obtain ⟨⟨ab, ar, an, ac1, ac2⟩, ⟨br, bn, bc1, bc2⟩, ⟨rn, rc1, rc2⟩, ⟨nc1, nc2⟩, -⟩ := nd
  have sa1 := h.sc1 (a + 348) (by simp)
  have sb1 := h.sc1 (b + 348) (by simp)
  have sn1 := h.sc1 (n + 348) (by simp)
  have sb2 := h.sc2 (b + 348) (by simp)
  have sr2 := h.sc2 (ret + 348) (by simp)
  have sn2 := h.sc2 (n + 348) (by simp)
  refine Does.seq (Does.ite (Does.asg (by simp [h.cc2]) (by simp [h.vn]) ?_))
  simp only [runAsg_cons, runAsg_nil, Src.valM, arith]
  have i1 : I (s.set c2 (s (n + 348))) := h.hI s _ (Only.set (Only.refl _ _) (by simp) _) hI
  have o1 : Only (powOnly a ret n c1 c2 r0 (scr1 ++ scr2)) s (s.set c2 (s (n + 348))) := Only.set (Only.refl _ _) (by simp [powOnly]) _
  have rest : ∀ s1, I s1 → s1 (b + 348) = s (b + 348) → s1 (n + 348) = s (n + 348) → s1 (a + 348) = s (a + 348) →
      s1 (ret + 348) = (if compare .atLeast (s (b + 348) &&& s (n + 348)) 1 then s (ret + 348) * s (a + 348) else s (ret + 348)) →
      Only (powOnly a ret n c1 c2 r0 (scr1 ++ scr2)) s s1 → Does L (.seqs [.asg [⟨n + 348, .add, .var n⟩], mul2]) s1
        (PowStep I a b ret n (powOnly a ret n c1 c2 r0 (scr1 ++ scr2)) s) := by
    intro s1 j1 eb en ea er o1
    refine Does.seq (Does.asg (by simp [h.cn]) (by simp [h.vn]) ?_)
    simp only [runAsg_cons, runAsg_nil, Src.valM, arith]
    refine Does.seq ((h.m2 _ (h.hI s1 _ (Only.set (Only.refl _ _) (by simp) _) j1)).mono ?_)
    rintro s2 ⟨e2, j2, o2⟩
    refine Does.skip ⟨j2, ?_, ?_, ?_, ?_, ?_⟩
    · rw [o2 _ (by simp; exact ⟨by omega, sb2⟩), set_ne bn, eb]
    · rw [o2 _ (by simp; exact ⟨by omega, sn2⟩), set_eq, en]
    · rw [e2]; simp only [set_ne an, ea]
    · rw [o2 _ (by simp; exact ⟨by omega, sr2⟩), set_ne rn, er]
    · refine (o1.trans (Only.set (Only.refl _ _) (by simp [powOnly]) _)).trans (o2.mono ?_)
      intro z hz
      simp only [List.mem_cons] at hz
      rcases hz with rfl | hz <;> simp [powOnly, *]
  refine ⟨by simp [cMemM_ok h.cb], ?_, ?_⟩
  · intro hh
    simp only [holdsAll_cons, holdsAll_nil, Bool.and_true, cMemM_holds, set_eq, set_ne bc2] at hh
    refine (h.m1 _ i1).mono ?_
    rintro s1 ⟨e1, j1, o2⟩
    refine rest s1 j1 ?_ ?_ ?_ ?_ (o1.trans (o2.mono ?_))
    · rw [o2 _ (by simp; exact ⟨by omega, sb1⟩), set_ne bc2]
    · rw [o2 _ (by simp; exact ⟨by omega, sn1⟩), set_ne nc2]
    · rw [o2 _ (by simp; exact ⟨by omega, sa1⟩), set_ne ac2]
    · rw [e1, if_pos hh]; simp only [set_ne rc2, set_ne ac2]
    · intro z hz
      simp only [List.mem_cons] at hz
      rcases hz with rfl | hz <;> simp [powOnly, *]
  · intro hh
    simp only [holdsAll_cons, holdsAll_nil, Bool.and_true, cMemM_holds, set_eq, set_ne bc2] at hh
    refine Does.skip (rest _ i1 (set_ne bc2) (set_ne nc2) (set_ne ac2) ?_ o1)
    rw [set_ne rc2, if_neg (by rw [hh]; simp)]

/-- The state of the loop before round `k`. -/
structure PowInv (I : Mem → Prop) (a b ret n : Nat) (a0 b0 : W) (k : Nat) (s : Mem) : Prop where
  hb : s (b + 348) = b0
  hn : (s (n + 348)).toNat = 2 ^ k
  ha : (s (a + 348)).toNat = a0.toNat ^ (2 ^ k) % 2 ^ 32
  hr : (s (ret + 348)).toNat = a0.toNat ^ (b0.toNat % 2 ^ k) % 2 ^ 32
  hI : I s

theorem PowInv.step {a0 b0 : W} {k : Nat} {only : List Nat} {s s' : Mem} (h : PowInv I a b ret n a0 b0 k s) (hk : k < 31) (hs : PowStep I a b ret n only s s') :
    PowInv I a b ret n a0 b0 (k + 1) s' := by
  have h2 : (2 : Nat) ^ k < 2 ^ 31 := Nat.pow_lt_pow_right (by omega) hk
  have en : s (n + 348) = pow2 k := by
    apply BitVec.eq_of_toNat_eq
    rw [h.hn, pow2, BitVec.toNat_twoPow, Nat.mod_eq_of_lt (by omega)]
  refine ⟨hs.hb.trans h.hb, ?_, ?_, ?_, hs.hI⟩
  · rw [hs.hn, BitVec.toNat_add, h.hn, Nat.pow_succ, Nat.mod_eq_of_lt (by omega)]; omega
  · rw [hs.ha, BitVec.toNat_mul, h.ha, ← Nat.mul_mod, ← Nat.pow_add, show 2 ^ (k + 1) = 2 ^ k + 2 ^ k by rw [Nat.pow_succ]; omega]
  · rw [hs.hr, h.hb, en, pow2_bit _ (show k < 32 by omega), mod_pow_succ b0.toNat k]
    rw [show b0.getLsbD k = b0.toNat.testBit k from rfl]
    split
    · rw [BitVec.toNat_mul, h.hr, h.ha, ← Nat.mul_mod, ← Nat.pow_add]
    · rw [h.hr, Nat.add_zero]

/-- **C44 (powers).** For every base and every exponent below `2**31` the function returns `a ** b` modulo `2**32`. -/
theorem C44_pow (h : PowOk L I a b ret n c1 c2 r0 mul1 mul2 scr1 scr2) (s : Mem) (hI : I s) (hlt : (s (b + 348)).toNat < 2 ^ 31) :
    Wp L (eudPow b ret n c1 c2 r0 mul1 mul2) s fun o s' => o = .ret ∧
      (s' (r0 + 348)).toNat = (s (a + 348)).toNat ^ (s (b + 348)).toNat % 2 ^ 32 ∧ I s' ∧ Only (powOnly a ret n c1 c2 r0 (scr1 ++ scr2)) s s' := by
  have nd := h.nd
  simp only [List.nodup_cons, List.mem_cons, List.not_mem_nil, or_false, not_or, not_false_eq_true, List.nodup_nil, and_true] at nd
  obtain ⟨⟨ab, ar, an, ac1, ac2⟩, ⟨br, bn, bc1, bc2⟩, ⟨rn, rc1, rc2⟩, ⟨nc1, nc2⟩, -⟩ := nd
  refine Wp.seqN (Does.asg (by simp [h.cr, h.cn]) (by simp) ?_)
  simp only [runAsg_cons, runAsg_nil, Src.valM, arith]
  have i0 : PowInv I a b ret n (s (a + 348)) (s (b + 348)) 0 ((s.set (ret + 348) 1).set (n + 348) 1) := by
    refine ⟨?_, ?_, ?_, ?_, h.hI s _ (Only.set (Only.set (Only.refl _ _) (by simp) _) (by simp) _) hI⟩
    · rw [set_ne bn, set_ne br]
    · rw [set_eq]; rfl
    · rw [set_ne an, set_ne ar, Nat.pow_zero, Nat.pow_one, Nat.mod_eq_of_lt (BitVec.isLt _)]
    · rw [set_ne rn, set_eq, Nat.pow_zero, Nat.mod_one, Nat.pow_zero]; rfl
  have o0 : Only (powOnly a ret n c1 c2 r0 (scr1 ++ scr2)) s ((s.set (ret + 348) 1).set (n + 348) 1) :=
    Only.set (Only.set (Only.refl _ _) (by simp [powOnly]) _) (by simp [powOnly]) _
  refine Wp.seqN ((Does.loop (Q := fun s' => (s' (ret + 348)).toNat = (s (a + 348)).toNat ^ (s (b + 348)).toNat % 2 ^ 32 ∧ I s' ∧
      Only (powOnly a ret n c1 c2 r0 (scr1 ++ scr2)) s s')
    (fun j s' => ∃ k, k + j = 31 ∧ PowInv I a b ret n (s (a + 348)) (s (b + 348)) k s' ∧ Only (powOnly a ret n c1 c2 r0 (scr1 ++ scr2)) s s')
    ?_ (n := 31) ⟨0, rfl, i0, o0⟩).mono ?_)
  · rintro j s1 ⟨k, hk, hi, ho⟩
    refine Does.asg (by simp [h.cc1]) (by simp [h.vb]) ?_
    simp only [runAsg_cons, runAsg_nil, Src.valM, arith]
    have hi2 : PowInv I a b ret n (s (a + 348)) (s (b + 348)) k (s1.set (c1 + 8) (s1 (b + 348))) :=
      ⟨by rw [set_ne bc1, hi.hb], by rw [set_ne nc1, hi.hn], by rw [set_ne ac1, hi.ha], by rw [set_ne rc1, hi.hr],
        h.hI s1 _ (Only.set (Only.refl _ _) (by simp) _) hi.hI⟩
    have ho2 : Only (powOnly a ret n c1 c2 r0 (scr1 ++ scr2)) s (s1.set (c1 + 8) (s1 (b + 348))) := Only.set ho (by simp [powOnly]) _
    have ec : holdsAll (s1.set (c1 + 8) (s1 (b + 348))) [cMemV (n + 348) .atMost c1] = decide (2 ^ k ≤ (s (b + 348)).toNat) := by
      simp only [holdsAll_cons, holdsAll_nil, Bool.and_true, cMemV_holds, set_eq, compare, set_ne nc1]
      rw [decide_eq_decide, BitVec.le_def, hi.hn, hi.hb]
    refine ⟨by simp [cMemV_ok h.cn], ?_, ?_⟩
    · intro hh
      rw [ec, decide_eq_false_iff_not] at hh
      refine ⟨?_, hi2.hI, ho2⟩
      rw [hi2.hr, Nat.mod_eq_of_lt (show (s (b + 348)).toNat < 2 ^ k by omega)]
    · intro hh
      rw [ec, Bool.not_false, decide_eq_true_eq] at hh
      have hk31 : k < 31 := (Nat.pow_lt_pow_iff_right (show 1 < 2 by omega)).1 (Nat.lt_of_le_of_lt hh hlt)
      refine (pow_round h hi2.hI).mono fun s2 h2 => Does.skip ⟨j - 1, by omega, k + 1, by omega, hi2.step hk31 h2, ho2.trans h2.only⟩
  · rintro s2 ⟨e2, i2, o2⟩
    refine Wp.seqN (Does.asg (by simp [h.c0]) (by simp [h.vr]) (Wp.ret ⟨rfl, ?_, ?_, ?_⟩))
    · simp only [runAsg_cons, runAsg_nil, Src.valM, arith]
      rw [set_eq, e2]
    · simp only [runAsg_cons, runAsg_nil]
      exact h.hI s2 _ (Only.set (Only.refl _ _) (by simp) _) i2
    · simp only [runAsg_cons, runAsg_nil]
      exact Only.set o2 (by simp [powOnly]) _

/-! ## Exponents from `2**31` on -/

/-- A loop that goes on forever: if `I` at the head of a loop leads through a whole round to `I` again, then the machine gets back to the head again and again,
after any number of steps. -/
theorem loop_forever (hw : L.Wf) {neg : Bool} {pre body inc : Stmt} {cs : List PC} {I : Mem → Prop}
    (h : ∀ s, I s → Does L pre s fun s1 => (∀ p ∈ cs, p.Ok L s1) ∧ holdsAll s1 cs = (!neg) ∧ Does L body s1 fun s2 => Does L inc s2 I)
    {r e c ta i x : Nat} (h1 : Code L r x i pre e c) (hb : BranchAt L (if neg then x else ta) (if neg then ta else x) c cs [])
    (hp : Code L r x i body ta i) (hi : Code L r x i inc i e) (hne : c ≠ e) {m : Mem} (hm : L.Ok m) (hI : I (L.view m)) :
    ∀ N, ∃ n m', N ≤ n ∧ stepN n ⟨m, e⟩ = some ⟨m', e⟩ ∧ L.Ok m' ∧ I (L.view m') := by
  intro N
  induction N with
  | zero => exact ⟨0, m, Nat.le_refl _, rfl, hm, hI⟩
  | succ N ih =>
    obtain ⟨n, m1, hn, hs, o1, i1⟩ := ih
    obtain ⟨s1, r1, hok, hh, hd⟩ := (h _ i1).runs hw h1
    obtain ⟨s2, r3, hd2⟩ := hd.runs hw hp
    obtain ⟨s3, r4, i3⟩ := hd2.runs hw hi
    obtain ⟨m2, ⟨k, hk⟩, o2, v2⟩ := r1 m1 o1 rfl
    have r2 := C24_branch hw hb hok (fun _ => trivial)
    have e2 : (if holdsAll s1 cs then (if neg then x else ta) else if neg then ta else x) = ta := by rw [hh]; cases neg <;> rfl
    have e3 : (if holdsAll s1 cs then runPA [] s1 else s1) = s1 := by split <;> rfl
    rw [e2, e3] at r2
    obtain ⟨m3, ⟨j, hj⟩, o3, v3⟩ := ((r2.trans r3).trans r4) m2 o2 v2
    refine ⟨n + (k + j), m3, ?_, ?_, o3, v3 ▸ i3⟩
    · have : k ≠ 0 := by
        rintro rfl
        simp only [stepN, Option.some.injEq, State.mk.injEq] at hk
        exact hne hk.2.symm
      omega
    · rw [stepN_add, hs]
      show stepN (k + j) ⟨m1, e⟩ = _
      rw [stepN_add, hk]
      exact hj

/-- The loop condition stays true forever. -/
theorem pow_stuck (h : PowOk L I a b ret n c1 c2 r0 mul1 mul2 scr1 scr2) {s : Mem}
    (hs : I s ∧ 2 ^ 31 ≤ (s (b + 348)).toNat ∧ (s (n + 348) = 0 ∨ ∃ k < 32, s (n + 348) = pow2 k)) :
    Does L (.asg [⟨c1 + 8, .set, .var b⟩]) s fun s1 => (∀ p ∈ [cMemV (n + 348) .atMost c1], p.Ok L s1) ∧ holdsAll s1 [cMemV (n + 348) .atMost c1] = (!false) ∧
      Does L (.seqs [.ite (.asg [⟨c2, .set, .var n⟩]) [cMemM (b + 348) .atLeast 1 c2] mul1 .skip, .asg [⟨n + 348, .add, .var n⟩], mul2]) s1 fun s2 =>
      Does L .skip s2 fun s => I s ∧ 2 ^ 31 ≤ (s (b + 348)).toNat ∧ (s (n + 348) = 0 ∨ ∃ k < 32, s (n + 348) = pow2 k) := by
  have nd := h.nd
  simp only [List.nodup_cons, List.mem_cons, List.not_mem_nil, or_false, not_or, not_false_eq_true, List.nodup_nil, and_true] at nd
  obtain ⟨⟨ab, ar, an, ac1, ac2⟩, ⟨br, bn, bc1, bc2⟩, ⟨rn, rc1, rc2⟩, ⟨nc1, nc2⟩, -⟩ := nd
  obtain ⟨hI, hb, hn⟩ := hs
  refine Does.asg (by simp [h.cc1]) (by simp [h.vb]) ?_
  simp only [runAsg_cons, runAsg_nil, Src.valM, arith]
  have hI2 : I (s.set (c1 + 8) (s (b + 348))) := h.hI s _ (Only.set (Only.refl _ _) (by simp) _) hI
  refine ⟨by simp [cMemV_ok h.cn], ?_, (pow_round h hI2).mono fun s2 h2 => Does.skip ⟨h2.hI, ?_, ?_⟩⟩
  · simp only [holdsAll_cons, holdsAll_nil, Bool.and_true, cMemV_holds, set_eq, compare, set_ne nc1, Bool.not_false, decide_eq_true_eq]
    rw [BitVec.le_def]
    rcases hn with hn | ⟨k, hk, hn⟩
    · rw [hn]; exact Nat.zero_le _
    · rw [hn, pow2, BitVec.toNat_twoPow]
      have : 2 ^ k ≤ 2 ^ 31 := Nat.pow_le_pow_right (by omega) (by omega)
      rw [Nat.mod_eq_of_lt (by omega)]; omega
  · rw [h2.hb, set_ne bc1]; exact hb
  · rw [h2.hn, set_ne nc1]
    rcases hn with hn | ⟨k, hk, hn⟩
    · left; rw [hn]; rfl
    · have : ∀ k < 32, pow2 k + pow2 k = if k = 31 then 0 else pow2 (k + 1) := by decide +kernel
      rw [hn, this k hk]
      split
      · exact Or.inl rfl
      · exact Or.inr ⟨k + 1, by omega, rfl⟩

/-- **C44 (large exponents).** For every exponent from `2**31` on, `f_pow` does not terminate: however many steps the machine makes, it gets back to the head
of the loop once more. -/
theorem C44_diverges (hw : L.Wf) (h : PowOk L I a b ret n c1 c2 r0 mul1 mul2 scr1 scr2) {fend es e c ta i x : Nat}
    (h0 : Code L fend 0 0 (.asg [⟨ret + 348, .set, .const 1⟩, ⟨n + 348, .set, .const 1⟩]) es e)
    (h1 : Code L fend x i (.asg [⟨c1 + 8, .set, .var b⟩]) e c) (hb : BranchAt L ta x c [cMemV (n + 348) .atMost c1] [])
    (hp : Code L fend x i (.seqs [.ite (.asg [⟨c2, .set, .var n⟩]) [cMemM (b + 348) .atLeast 1 c2] mul1 .skip, .asg [⟨n + 348, .add, .var n⟩], mul2]) ta i)
    (hi : Code L fend x i .skip i e) (hne : c ≠ e)
    {m : Mem} (hm : L.Ok m) (hI : I (L.view m)) (hlarge : 2 ^ 31 ≤ (L.view m (b + 348)).toNat) :
    ∀ N, ∃ n m', N ≤ n ∧ stepN n ⟨m, es⟩ = some ⟨m', e⟩ := by
  have nd := h.nd
  simp only [List.nodup_cons, List.mem_cons, List.not_mem_nil, or_false, not_or, not_false_eq_true, List.nodup_nil, and_true] at nd
  obtain ⟨⟨ab, ar, an, ac1, ac2⟩, ⟨br, bn, bc1, bc2⟩, ⟨rn, rc1, rc2⟩, ⟨nc1, nc2⟩, -⟩ := nd
  have hd : Does L (.asg [⟨ret + 348, .set, .const 1⟩, ⟨n + 348, .set, .const 1⟩]) (L.view m) fun s =>
      I s ∧ 2 ^ 31 ≤ (s (b + 348)).toNat ∧ (s (n + 348) = 0 ∨ ∃ k < 32, s (n + 348) = pow2 k) := by
    refine Does.asg (by simp [h.cr, h.cn]) (by simp) ?_
    simp only [runAsg_cons, runAsg_nil, Src.valM, arith]
    refine ⟨h.hI _ _ (Only.set (Only.set (Only.refl _ _) (by simp) _) (by simp) _) hI, ?_, Or.inr ⟨0, by omega, ?_⟩⟩
    · rw [set_ne bn, set_ne br]; exact hlarge
    · rw [set_eq]; rfl
  obtain ⟨s1, r1, hs1⟩ := hd.runs hw h0
  obtain ⟨m1, ⟨k, hk⟩, o1, v1⟩ := r1 m hm rfl
  intro N
  obtain ⟨j, m2, hj, hs, -⟩ := loop_forever hw (neg := false) (fun s hs => pow_stuck h hs) h1 hb hp hi hne o1 (by rw [v1]; exact hs1) N
  exact ⟨k + j, m2, by omega, by rw [stepN_add, hk]; exact hs⟩

end

end Eud.SC
