import Verif.Lib.ConstMulDiv
/-
C21: division by a variable (core/calcf/muldiv.py:430-474 `_eud_div`).
-/

namespace Eud.SC

/-- muldiv.py:470-475: the trigger `chain[i]`, at `t`, with the amounts that get filled in. -/
def divLink (a ret i t : Nat) : Stmt := .trig [cMemV a .atLeast (t + 8)] [aMemV a .sub (t + 328), aMem ret .add (pow2 i)]

/-- From `chain[i]` to the end. -/
def divChain (a ret : Nat) (t : Nat → Nat) (n : Nat) : Stmt := .seqs ((List.range n).reverse.map fun i => divLink a ret i (t i))

/-- muldiv.py:446-466: fill in `chain[i]`, skip to it if `x` is over `0x80000000`, double `x`.  `k` is the number of rounds still to come.
The triggers `p1` and `p3` are a branch. -/
def divFill (a ret x : Nat) (t : Nat → Nat) : Nat → Nat → Stmt
  | 0, i => divChain a ret t i
  | k + 1, i => .seq (.asg [⟨t i + 16, .set, .var x⟩, ⟨t i + 348, .set, .var x⟩])
      (.ite .skip [cMemX (x + 348) .atLeast 1 0x80000000] (divChain a ret t (i + 1))
        (.seq (.asg [⟨x + 348, .add, .var x⟩]) (divFill a ret x t k (i + 1))))

/-- muldiv.py:430-474: the body of `_eud_div`.  `a`, `b` are the parameters, `ret`, `x` local variables, `r0`, `r1` the result variables. -/
def eudDiv (a b ret x r0 r1 : Nat) (t : Nat → Nat) : Stmt :=
  .seq (.asg [⟨ret + 348, .set, .const 0⟩, ⟨x + 348, .set, .var b⟩])
    (.seq (divFill (a + 348) (ret + 348) x t 32 0)
      (.seq (.asg [⟨r0 + 348, .set, .var ret⟩, ⟨r1 + 348, .set, .var a⟩]) .ret))

/-- The places used. -/
structure DivCells (L : Layout) (a ret x : Nat) (t : Nat → Nat) : Prop where
  ca : L.cell a
  cr : L.cell ret
  vx : x ∈ L.P.vars
  cx : L.cell (x + 348)
  h : ∀ i < 32, L.cell (t i + 16) ∧ L.cell (t i + 348)
  ar : a ≠ ret
  ax : a ≠ x + 348
  rx : ret ≠ x + 348
  ha : ∀ i < 32, a ≠ t i + 16 ∧ a ≠ t i + 348 ∧ ret ≠ t i + 16 ∧ ret ≠ t i + 348 ∧ x + 348 ≠ t i + 16 ∧ x + 348 ≠ t i + 348
  hh : ∀ i < 32, ∀ j < 32, i ≠ j → t i + 16 ≠ t j + 16 ∧ t i + 16 ≠ t j + 348

/-- The dwords changed: variables and amounts. -/
def divOnly (a ret x : Nat) (t : Nat → Nat) : List Nat := a :: ret :: (x + 348) :: (List.range 32).flatMap fun i => [t i + 16, t i + 348]

theorem divChain_does {L : Layout} {a ret x : Nat} {t : Nat → Nat} (hc : DivCells L a ret x t) {b : Nat} (hb : 0 < b) : ∀ (n : Nat) (s : Mem), n ≤ 32 →
    (∀ i < n, b * 2 ^ i < 2 ^ 32 ∧ s (t i + 16) = BitVec.ofNat 32 (b * 2 ^ i) ∧ s (t i + 348) = BitVec.ofNat 32 (b * 2 ^ i)) →
    (s a).toNat < 2 ^ n * b → Does L (divChain a ret t n) s fun s' =>
      (s' a).toNat = (s a).toNat % b ∧ s' ret = s ret + BitVec.ofNat 32 ((s a).toNat / b) ∧ Only [a, ret] s s'
  | 0, s, _, _, h => by
    refine Does.skip ⟨?_, ?_, Only.refl _ _⟩
    · rw [Nat.mod_eq_of_lt (by simpa using h)]
    · rw [Nat.div_eq_of_lt (by simpa using h)]; simp
  | n + 1, s, hn, hs, h => by
    have ih := divChain_does hc hb n
    unfold divChain at ih ⊢
    rw [List.range_succ, List.reverse_append, List.reverse_singleton, List.singleton_append, List.map_cons]
    obtain ⟨hlt, g1, g2⟩ := hs n (by omega)
    obtain ⟨a1, a2, r1, r2, -, -⟩ := hc.ha n (by omega)
    rw [Nat.mul_comm b] at hlt
    have hN : (BitVec.ofNat 32 (2 ^ n * b)).toNat = 2 ^ n * b := by rw [BitVec.toNat_ofNat, Nat.mod_eq_of_lt hlt]
    refine Does.seq (Does.trig (by simp; exact cMemV_ok hc.ca _ _ _) ?_ ?_) <;>
      simp only [holdsAll_cons, holdsAll_nil, Bool.and_true, cMemV_holds, compare, decide_eq_true_eq, decide_eq_false_iff_not, runPA_cons, runPA_nil, aMem_run,
        aMemV_run, BitVec.le_def, show t n + 8 + 8 = t n + 16 from rfl, show t n + 328 + 20 = t n + 348 from rfl, g1, g2, Nat.mul_comm b, hN] <;> intro hcond
    · obtain ⟨d1, d2, d3⟩ := div_step hb hcond h
      have hsub : ((arith .sub (s a) (BitVec.ofNat 32 (2 ^ n * b)))).toNat = (s a).toNat - 2 ^ n * b := by rw [sub_of_le (by rw [hN]; exact hcond), hN]
      refine ⟨actsOk_memV hc.ca (actsOk_mem hc.cr trivial), ?_⟩
      refine (ih _ (by omega) ?_ ?_).mono ?_
      · intro i hi
        obtain ⟨b1, b2, b3, b4, -, -⟩ := hc.ha i (by omega)
        rw [set_ne b3.symm, set_ne b1.symm, set_ne b4.symm, set_ne b2.symm]
        exact hs i (by omega)
      · rw [set_ne hc.ar, set_eq, hsub]; exact d1
      · rintro s' ⟨e1, e2, e3⟩
        rw [set_ne hc.ar, set_eq, hsub] at e1
        refine ⟨e1.trans d2, ?_, ?_⟩
        · rw [e2, set_ne hc.ar (m := s.set a _), set_eq, set_eq, hsub, set_ne hc.ar.symm, d3, BitVec.ofNat_add, arith, BitVec.add_assoc]
          congr 2
          apply BitVec.eq_of_toNat_eq
          rw [pow2, BitVec.toNat_twoPow, BitVec.toNat_ofNat]
        · exact (((Only.refl _ _).set (by simp) _).set (by simp) _).trans e3
    · exact ih s (by omega) (fun i hi => hs i (by omega)) (by omega)

/-- Division by 0: every bit of the quotient is set. -/
theorem divChain_zero {L : Layout} {a ret x : Nat} {t : Nat → Nat} (hc : DivCells L a ret x t) : ∀ (n : Nat) (s : Mem), n ≤ 32 →
    (∀ i < n, s (t i + 16) = 0 ∧ s (t i + 348) = 0) → Does L (divChain a ret t n) s fun s' =>
      s' a = s a ∧ s' ret = s ret + BitVec.ofNat 32 (2 ^ n - 1) ∧ Only [a, ret] s s'
  | 0, s, _, _ => Does.skip ⟨rfl, by simp, Only.refl _ _⟩
  | n + 1, s, hn, hs => by
    have ih := divChain_zero hc n
    unfold divChain at ih ⊢
    rw [List.range_succ, List.reverse_append, List.reverse_singleton, List.singleton_append, List.map_cons]
    obtain ⟨g1, g2⟩ := hs n (by omega)
    refine Does.seq (Does.trig (by simp; exact cMemV_ok hc.ca _ _ _) ?_ ?_) <;>
      simp only [holdsAll_cons, holdsAll_nil, Bool.and_true, cMemV_holds, compare, decide_eq_true_eq, decide_eq_false_iff_not, runPA_cons, runPA_nil, aMem_run,
        aMemV_run, BitVec.le_def, show t n + 8 + 8 = t n + 16 from rfl, show t n + 328 + 20 = t n + 348 from rfl, g1, g2] <;> intro hcond
    · refine ⟨actsOk_memV hc.ca (actsOk_mem hc.cr trivial), ?_⟩
      have h0 : arith .sub (s a) 0 = s a := by
        simp only [arith]
        rw [if_neg (by simp)]
        exact BitVec.sub_zero _
      rw [h0, set_self]
      refine (ih _ (by omega) ?_).mono ?_
      · intro i hi
        obtain ⟨-, -, b3, b4, -, -⟩ := hc.ha i (by omega)
        rw [set_ne b3.symm, set_ne b4.symm]
        exact hs i (by omega)
      · rintro s' ⟨e1, e2, e3⟩
        refine ⟨by rw [e1, set_ne hc.ar], ?_, ((Only.refl _ _).set (by simp) _).trans e3⟩
        rw [e2, set_eq, arith, BitVec.add_assoc]
        congr 1
        apply BitVec.eq_of_toNat_eq
        rw [pow2, BitVec.toNat_add, BitVec.toNat_twoPow, BitVec.toNat_ofNat, BitVec.toNat_ofNat, ← Nat.add_mod]
        congr 1
        have : 0 < 2 ^ n := Nat.pow_pos (by omega)
        rw [Nat.pow_succ]
        omega
    · exact absurd (Nat.zero_le _) hcond

/-- Is the top bit set? -/
theorem top_bit (w : W) : compare .atLeast (w &&& 0x80000000) 1 = decide (2 ^ 31 ≤ w.toNat) := by
  have := pow2_bit w (i := 31) (by omega)
  rw [show (0x80000000 : W) = pow2 31 from by decide, this, BitVec.getLsbD, Nat.testBit_eq_decide_div_mod_eq]
  congr 1
  have := w.isLt
  apply propext
  omega

theorem only_hole {a ret x : Nat} {t : Nat → Nat} {i : Nat} (hi : i < 32) : t i + 16 ∈ divOnly a ret x t ∧ t i + 348 ∈ divOnly a ret x t := by
  unfold divOnly
  simp only [List.mem_cons, List.mem_flatMap, List.mem_range, List.not_mem_nil, or_false]
  exact ⟨Or.inr (Or.inr (Or.inr ⟨i, hi, Or.inl rfl⟩)), Or.inr (Or.inr (Or.inr ⟨i, hi, Or.inr rfl⟩))⟩

theorem only_two {a ret x : Nat} {t : Nat → Nat} : ∀ y ∈ [a, ret], y ∈ divOnly a ret x t := by
  intro y hy
  simp only [List.mem_cons, List.not_mem_nil, or_false] at hy
  rcases hy with rfl | rfl <;> simp [divOnly]

theorem divFill_does {L : Layout} {a ret x : Nat} {t : Nat → Nat} (hc : DivCells L a ret x t) (b : W) : ∀ (k i : Nat) (s : Mem), k + i = 32 →
    b.toNat * 2 ^ i < 2 ^ 33 → (0 < k → b.toNat * 2 ^ i < 2 ^ 32) → s (x + 348) = BitVec.ofNat 32 (b.toNat * 2 ^ i) →
    (∀ j < i, b.toNat * 2 ^ j < 2 ^ 32 ∧ s (t j + 16) = BitVec.ofNat 32 (b.toNat * 2 ^ j) ∧ s (t j + 348) = BitVec.ofNat 32 (b.toNat * 2 ^ j)) →
    (k = 0 → b = 0) →
    Does L (divFill a ret x t k i) s fun s' =>
      (if b = 0 then s' a = s a ∧ s' ret = s ret + 0xFFFFFFFF else
        (s' a).toNat = (s a).toNat % b.toNat ∧ s' ret = s ret + BitVec.ofNat 32 ((s a).toNat / b.toNat)) ∧ Only (divOnly a ret x t) s s'
  | 0, i, s, hi, _, _, _, hs, hz => by
    obtain rfl := hz rfl
    have hi : i = 32 := by omega
    subst hi
    refine (divChain_zero hc 32 s (by omega) (fun j hj => by have := hs j hj; simpa using this)).mono ?_
    rintro s' ⟨e1, e2, e3⟩
    rw [if_pos rfl]
    exact ⟨⟨e1, e2⟩, e3.mono only_two⟩
  | k + 1, i, s, hi, hlt33, hlt, hx, hs, _ => by
    have hi32 : i < 32 := by omega
    have hlt := hlt (by omega)
    obtain ⟨c1, c2⟩ := hc.h i hi32
    obtain ⟨a1, a2, r1, r2, x1, x2⟩ := hc.ha i hi32
    have hvars : ∀ g ∈ [(⟨t i + 16, .set, .var x⟩ : Asg), ⟨t i + 348, .set, .var x⟩], ∀ v, g.src = .var v → v ∈ L.P.vars := by
      intro g hg v hv
      simp only [List.mem_cons, List.not_mem_nil, or_false] at hg
      rcases hg with rfl | rfl <;> cases hv <;> exact hc.vx
    refine Does.seq (Does.asg (by simp [c1, c2]) hvars ?_)
    simp only [runAsg, Src.valM, arith]
    rw [set_ne x1, hx]
    -- the state after filling in
    have hmem : ∀ s1 : Mem, s1 = (s.set (t i + 16) (BitVec.ofNat 32 (b.toNat * 2 ^ i))).set (t i + 348) (BitVec.ofNat 32 (b.toNat * 2 ^ i)) →
        s1 a = s a ∧ s1 ret = s ret ∧ s1 (x + 348) = BitVec.ofNat 32 (b.toNat * 2 ^ i) ∧ Only (divOnly a ret x t) s s1 ∧
        ∀ j < i + 1, b.toNat * 2 ^ j < 2 ^ 32 ∧ s1 (t j + 16) = BitVec.ofNat 32 (b.toNat * 2 ^ j) ∧ s1 (t j + 348) = BitVec.ofNat 32 (b.toNat * 2 ^ j) := by
      rintro s1 rfl
      refine ⟨by rw [set_ne a2, set_ne a1], by rw [set_ne r2, set_ne r1], by rw [set_ne x2, set_ne x1, hx], ?_, ?_⟩
      · exact ((Only.refl _ _).set (only_hole hi32).1 _).set (only_hole hi32).2 _
      · intro j hj
        by_cases hji : j = i
        · subst hji
          refine ⟨hlt, ?_, set_eq _ _ _⟩
          rw [set_ne (by omega), set_eq]
        · obtain ⟨q1, q2, q3⟩ := hs j (by omega)
          have n1 := hc.hh j (by omega) i hi32 hji
          have n2 := hc.hh i hi32 j (by omega) (Ne.symm hji)
          refine ⟨q1, ?_, ?_⟩
          · rw [set_ne n1.2, set_ne n1.1, q2]
          · rw [set_ne (by omega), set_ne (Ne.symm n2.2), q3]
    generalize hS : (s.set (t i + 16) (BitVec.ofNat 32 (b.toNat * 2 ^ i))).set (t i + 348) (BitVec.ofNat 32 (b.toNat * 2 ^ i)) = s1
    obtain ⟨m1, m2, m3, m4, m5⟩ := hmem s1 hS.symm
    have hX : (BitVec.ofNat 32 (b.toNat * 2 ^ i)).toNat = b.toNat * 2 ^ i := by rw [BitVec.toNat_ofNat, Nat.mod_eq_of_lt hlt]
    have hp : 2 ^ (i + 1) = 2 ^ i * 2 := Nat.pow_succ ..
    have hmono : ∀ y ∈ [a, ret], y ∈ divOnly a ret x t := only_two
    refine Does.ite0 (by simp; exact cMemX_ok hc.cx _ _ _ _) ?_ ?_ <;>
      simp only [holdsAll_cons, holdsAll_nil, Bool.and_true, cMemX_holds, top_bit, decide_eq_true_eq, decide_eq_false_iff_not, m3, hX] <;> intro hcond
    · have hb0 : 0 < b.toNat := by
        rcases Nat.eq_zero_or_pos b.toNat with h0 | h0
        · rw [h0] at hcond; simp at hcond
        · exact h0
      have hbne : b ≠ 0 := by rintro rfl; simp at hb0
      refine (divChain_does hc hb0 (i + 1) s1 (by omega) m5 ?_).mono ?_
      · refine Nat.lt_of_lt_of_le (BitVec.isLt _) ?_
        rw [hp, Nat.mul_comm, ← Nat.mul_assoc]
        omega
      · rintro s' ⟨e1, e2, e3⟩
        rw [if_neg hbne]
        rw [m1] at e1 e2
        rw [m2] at e2
        exact ⟨⟨e1, e2⟩, m4.trans (e3.mono hmono)⟩
    · refine Does.seq (Does.asg (by simpa using hc.cx) (by simpa using hc.vx) ?_)
      simp only [runAsg, Src.valM, arith, m3]
      have hdbl : BitVec.ofNat 32 (b.toNat * 2 ^ i) + BitVec.ofNat 32 (b.toNat * 2 ^ i) = BitVec.ofNat 32 (b.toNat * 2 ^ (i + 1)) := by
        rw [← BitVec.ofNat_add, hp, ← Nat.mul_assoc, Nat.mul_two]
      have hp2 : b.toNat * 2 ^ (i + 1) = b.toNat * 2 ^ i * 2 := by rw [hp, Nat.mul_assoc]
      rw [hdbl]
      refine (divFill_does hc b k (i + 1) _ (by omega) (by omega) (fun _ => by omega) (set_eq _ _ _) ?_ ?_).mono ?_
      · intro j hj
        obtain ⟨-, -, -, -, x3, x4⟩ := hc.ha j (by omega)
        rw [set_ne x3.symm, set_ne x4.symm]
        exact m5 j hj
      · intro hk
        have : i = 31 := by omega
        subst this
        apply BitVec.eq_of_toNat_eq
        simp only [BitVec.ofNat_eq_ofNat, BitVec.toNat_ofNat, Nat.zero_mod]
        omega
      · rintro s' ⟨e1, e2⟩
        rw [set_ne hc.ax, m1, set_ne hc.rx, m2] at e1
        exact ⟨e1, (m4.set (by simp [divOnly]) _).trans e2⟩

/-- **C21 (division).** For all values of the operands, the quotient and the remainder of unsigned division are returned; for divisor 0 these
are `2**32 - 1` and the dividend. -/
theorem C21_div {L : Layout} {a b ret x r0 r1 : Nat} {t : Nat → Nat} (hc : DivCells L (a + 348) (ret + 348) x t) (va : a ∈ L.P.vars) (vb : b ∈ L.P.vars)
    (vr : ret ∈ L.P.vars) (c0 : L.cell (r0 + 348)) (c1 : L.cell (r1 + 348)) (hb : b ≠ ret) (h0 : a ≠ r0) (h01 : r0 ≠ r1) (s : Mem) :
    Wp L (eudDiv a b ret x r0 r1 t) s fun o s' => o = .ret ∧
      (s' (r0 + 348)).toNat = (if s (b + 348) = 0 then 2 ^ 32 - 1 else (s (a + 348)).toNat / (s (b + 348)).toNat) ∧
      (s' (r1 + 348)).toNat = (if s (b + 348) = 0 then (s (a + 348)).toNat else (s (a + 348)).toNat % (s (b + 348)).toNat) ∧
      Only ((r0 + 348) :: (r1 + 348) :: divOnly (a + 348) (ret + 348) x t) s s' := by
  have hrx : ret + 348 ≠ x + 348 := hc.rx
  have har : a + 348 ≠ ret + 348 := hc.ar
  have hax : a + 348 ≠ x + 348 := hc.ax
  have hbr : b + 348 ≠ ret + 348 := by omega
  have hbl := (s (b + 348)).isLt
  refine Wp.seqN (Does.asg (by simp [hc.cr, hc.cx]) (by simpa using vb) ?_)
  simp only [runAsg, Src.valM, arith]
  rw [set_ne hbr]
  refine Wp.seqN ((divFill_does hc (s (b + 348)) 32 0 _ rfl (by omega) (by omega) (by rw [set_eq]; simp) (by omega) (by omega)).mono ?_)
  rintro s1 ⟨e1, e2⟩
  rw [set_ne hax, set_ne har, set_ne hrx, set_eq] at e1
  refine Wp.seqN (Does.asg (by simp [c0, c1]) (by
    intro g hg v hv
    simp only [List.mem_cons, List.not_mem_nil, or_false] at hg
    rcases hg with rfl | rfl <;> cases hv
    · exact vr
    · exact va) (Wp.ret ⟨rfl, ?_, ?_, ?_⟩)) <;> simp only [runAsg, Src.valM, arith]
  · rw [set_ne (by omega), set_eq]
    split at e1 <;> rename_i hz
    · rw [if_pos hz, e1.2]; rfl
    · rw [if_neg hz, e1.2, show ∀ w : W, 0 + w = w from BitVec.zero_add, BitVec.toNat_ofNat,
        Nat.mod_eq_of_lt (Nat.lt_of_le_of_lt (Nat.div_le_self _ _) (BitVec.isLt _))]
  · rw [set_eq, set_ne (by omega)]
    split at e1 <;> rename_i hz
    · rw [if_pos hz, e1.1]
    · rw [if_neg hz, e1.1]
  · refine Only.set (Only.set ?_ (by simp) _) (by simp) _
    refine Only.trans ?_ (e2.mono (fun y hy => List.mem_cons_of_mem _ (List.mem_cons_of_mem _ hy)))
    exact ((Only.refl _ _).set (by simp [divOnly]) _).set (by simp [divOnly]) _

end Eud.SC
