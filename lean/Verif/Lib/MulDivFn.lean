import Verif.Lib.ConstMulDiv
import Verif.Lib.SelfAdd
import Verif.Lib.Shift
import Verif.Lib.Ops
import Verif.Lib.MulCall
import Verif.Machine.InPlace
/-
C20, C21, C22: multiplication, division and shifts with one constant operand, as the library calls them: every special case of
`_const_mul`, `_const_div`, `_const_quot`, `_const_rem` (core/calcf/muldiv.py:148-383) and of `f_bitlshift`, `f_bitrshift` (core/calcf/bitwise.py:144-221).
-/

namespace Eud.SC

variable {L : Layout}

/-! ## In-place operations as statements -/

/-- The trigger of an in-place operation with a constant on the dword at `a` (variable/vbase.py:78-179). -/
def iopS (a : Nat) (o : IOp) : Stmt := .trig [] (o.code.map fun c => aMemX a c.1 c.2.1 c.2.2)

theorem iop_run (a : Nat) : ∀ (l : List COp) (s : Mem), runPA (l.map fun c => aMemX a c.1 c.2.1 c.2.2) s = s.set a (l.foldl COp.run (s a))
  | [], s => by simp [set_self]
  | c :: l, s => by
    rw [List.map_cons, runPA_cons, aMemX_run, iop_run a l, List.foldl_cons, set_eq, set_set]
    rfl

theorem iop_ok {a : Nat} (ha : L.cell a) : ∀ (l : List COp) (s : Mem), ActsOk L (l.map fun c => aMemX a c.1 c.2.1 c.2.2) s
  | [], _ => trivial
  | _ :: l, _ => actsOk_memX ha (iop_ok ha l _)

theorem iop_does {a : Nat} {o : IOp} (h : o.Fits) (ha : L.cell a) (s : Mem) : Does L (iopS a o) s fun s' => s' = s.set a (o.spec (s a)) := by
  refine Does.acts (iop_ok ha _ _) ?_
  rw [iop_run, IOp.code_spec o h]

/-! ## Calls of functions with one parameter -/

/-- A call of a function of one parameter whose body computes `f`. -/
theorem fn1_call (hw : L.Wf) {fend nptr fstart back a r q : Nat} {sa : Src} {body : Stmt} {scr : List Nat} {f : W → W}
    (hk : CallOk L nptr [(r, q)] [(a + 348, sa)] scr) (hF : FuncCode L fstart fend nptr [r] body) (hback : back < 2 ^ 32)
    (hb : ∀ s, Wp L body s fun o s' => (o = .nrm ∨ o = .ret) ∧ s' (r + 348) = f (s (a + 348)) ∧ Only scr s s') :
    Comp L (.prim (CallRel L fend nptr back body [(r, q)] [(a + 348, sa)])) q (fun s => f (sa.valM s)) (callOnly nptr [(r, q)] [(a + 348, sa)] scr) := by
  intro s
  refine (C31_does hw hk hF hback (Q := fun s2 => s2 (r + 348) = f (sa.valM s)) ?_).mono ?_
  · intro s1 h1 _
    refine (hb s1).mono ?_
    rintro o s2 ⟨ho, h2, h3⟩
    exact ⟨ho, by rw [h2, h1 (a + 348, sa) (by simp)], h3⟩
  · rintro s' ⟨⟨s2, h1, h3, -⟩, h4⟩
    exact ⟨by rw [h3 (r, q) (by simp), h1], h4.mono fun x hx => by simp [hx]⟩

/-- A call of a function of one parameter with two results. -/
theorem fn12_call (hw : L.Wf) {fend nptr fstart back a r0 r1 q0 q1 : Nat} {sa : Src} {body : Stmt} {scr : List Nat} {f g : W → W}
    (hk : CallOk L nptr [(r0, q0), (r1, q1)] [(a + 348, sa)] scr) (hF : FuncCode L fstart fend nptr [r0, r1] body) (hback : back < 2 ^ 32)
    (hb : ∀ s, Wp L body s fun o s' => (o = .nrm ∨ o = .ret) ∧ (s' (r0 + 348) = f (s (a + 348)) ∧ s' (r1 + 348) = g (s (a + 348))) ∧ Only scr s s') :
    Comp2 L (.prim (CallRel L fend nptr back body [(r0, q0), (r1, q1)] [(a + 348, sa)])) q0 q1 (fun s => f (sa.valM s)) (fun s => g (sa.valM s))
      (callOnly nptr [(r0, q0), (r1, q1)] [(a + 348, sa)] scr) := by
  intro s
  refine (C31_does hw hk hF hback (Q := fun s2 => s2 (r0 + 348) = f (sa.valM s) ∧ s2 (r1 + 348) = g (sa.valM s)) ?_).mono ?_
  · intro s1 h1 _
    have e := h1 (a + 348, sa) (by simp)
    refine (hb s1).mono ?_
    rintro o s2 ⟨ho, ⟨h2, h2'⟩, h3⟩
    exact ⟨ho, ⟨by rw [h2, e], by rw [h2', e]⟩, h3⟩
  · rintro s' ⟨⟨s2, ⟨h1, h2⟩, h3, -⟩, h4⟩
    exact ⟨by rw [h3 (r0, q0) (by simp), h1], by rw [h3 (r1, q1) (by simp), h2], h4.mono fun x hx => by simp [hx]⟩

/-! ## Multiplication -/

/-- muldiv.py:155-217: the body of the function chosen for `number`, apart from the powers of two from 2 to 128, which are shifts.
`a` is the parameter, `r` the result variable, `t` the temporary of `-x`. -/
def mulFn (a r t n : Nat) : Stmt :=
  if n = 0xFFFFFFFF then .seq (opNeg t a) (.seq (.asg [⟨r + 348, .set, .var t⟩]) .ret)
  else if n = 0 then .seq (.asg [⟨r + 348, .set, .const 0⟩]) .ret
  else if n = 1 then .seq (.asg [⟨r + 348, .set, .var a⟩]) .ret
  else constMul (a + 348) (r + 348) n

theorem mulFn_wp (hw : L.Wf) {a r t n : Nat} (ca : L.cell (a + 348)) (va : n = 1 ∨ n = 0xFFFFFFFF → a ∈ L.P.vars) (vt : n = 0xFFFFFFFF → t ∈ L.P.vars) (cr : L.cell (r + 348)) (hta : t ≠ a) (har : a ≠ r) (s : Mem) :
    Wp L (mulFn a r t n) s fun o s' => (o = .nrm ∨ o = .ret) ∧ s' (r + 348) = s (a + 348) * BitVec.ofNat 32 n ∧ Only [r + 348, t + 348] s s' := by
  unfold mulFn
  split
  · rename_i hn
    subst hn
    refine Wp.seqN ((C53_neg hw (vt rfl) (va (.inr rfl)) hta s).mono ?_)
    rintro s1 ⟨h1, h2⟩
    refine Wp.seqN (Does.asg (by simpa using cr) (by simpa using vt rfl) (Wp.ret ⟨Or.inr rfl, ?_, ?_⟩))
    · simp only [runAsg_cons, runAsg_nil, Src.valM, arith, set_eq, h1]
      rw [show BitVec.ofNat 32 0xFFFFFFFF = -1#32 from rfl, BitVec.mul_neg]
      simp
    · exact Only.set (h2.mono (by simp)) (by simp) _
  split
  · rename_i hn
    subst hn
    refine Wp.seqN (Does.asg (by simpa using cr) (by simp) (Wp.ret ⟨Or.inr rfl, ?_, ?_⟩))
    · simp [runAsg, arith, Src.valM, set_eq]
    · exact (Only.refl _ _).set (by simp) _
  split
  · rename_i hn
    subst hn
    refine Wp.seqN (Does.asg (by simpa using cr) (by simpa using va (.inl rfl)) (Wp.ret ⟨Or.inr rfl, ?_, ?_⟩))
    · simp [runAsg, arith, Src.valM, set_eq]
    · exact (Only.refl _ _).set (by simp) _
  · refine Wp.mono (C20_const n ca cr (by omega) s).wp ?_
    rintro o s' ⟨rfl, h1, h2⟩
    exact ⟨Or.inl rfl, h1, h2.mono (by simp)⟩

/-- The exponent of the powers of two in the table of `_const_mul` (muldiv.py:182-188). -/
def mulPow (n : Nat) : Option Nat := [1, 2, 3, 4, 5, 6, 7].find? fun k => n = 2 ^ k

/-- Where a program has the code of `_const_mul(number)`: `_selfadder` and the function for shifts by `k`, or a function of its own. -/
structure MulAt where
  (fend nptr fstart back a r t ad p n : Nat)
  ns : List Nat

/-- muldiv.py:20-30, 148-217: `f_mul(x, number)` stored in the dword `q`, for a constant `number`. -/
def mulNum (L : Layout) (C : MulAt) (sa : Src) (q number : Nat) : Stmt :=
  match mulPow (number % 2 ^ 32) with
  | some _ => .prim (CallRel L C.fend C.nptr C.back (selfBody L C.ad C.p C.n C.ns) [] [(C.p + 20, .const (epd q)), (C.ad + 348, sa)])
  | none => .prim (CallRel L C.fend C.nptr C.back (mulFn C.a C.r C.t (number % 2 ^ 32)) [(C.r, q)] [(C.a + 348, sa)])

/-- The dwords of the function that a call may change. -/
def MulAt.scr (C : MulAt) (sa : Src) (q number : Nat) : List Nat :=
  match mulPow (number % 2 ^ 32) with
  | some _ => C.nptr :: (C.p + 20) :: selfScr C.ad
  | none => callOnly C.nptr [(C.r, q)] [(C.a + 348, sa)] [C.r + 348, C.t + 348]

/-- The code is in place. -/
def MulAt.Ok (L : Layout) (C : MulAt) (sa : Src) (q number : Nat) : Prop :=
  C.back < 2 ^ 32 ∧ (∀ x ∈ [C.ad + 344, C.ad + 352], x ∉ q :: callOnly C.nptr [(C.r, q)] [(C.a + 348, sa)] [C.r + 348, C.t + 348]) ∧
  match mulPow (number % 2 ^ 32) with
  | some k => C.ns.length = k ∧ PVar L C.ad ∧ EpdOK (C.ad + 348) ∧ L.cell q ∧ EpdOK q ∧ q ∉ selfScr C.ad ∧ C.p + 20 ∉ selfScr C.ad ∧
      CallOk L C.nptr [] [(C.p + 20, .const (epd q)), (C.ad + 348, sa)] (q :: selfScr C.ad) ∧
      FuncCode L C.fstart C.fend C.nptr [] (selfBody L C.ad C.p C.n C.ns)
  | none => L.cell (C.a + 348) ∧ (number % 2 ^ 32 = 1 ∨ number % 2 ^ 32 = 0xFFFFFFFF → C.a ∈ L.P.vars) ∧ (number % 2 ^ 32 = 0xFFFFFFFF → C.t ∈ L.P.vars) ∧ L.cell (C.r + 348) ∧ C.t ≠ C.a ∧ C.a ≠ C.r ∧
      CallOk L C.nptr [(C.r, q)] [(C.a + 348, sa)] [C.r + 348, C.t + 348] ∧
      FuncCode L C.fstart C.fend C.nptr [C.r] (mulFn C.a C.r C.t (number % 2 ^ 32))

theorem mulPow_some {n k : Nat} (h : mulPow n = some k) : n = 2 ^ k := by
  have := List.find?_some h
  simpa using this

theorem shl_mul (x : W) (k : Nat) : x <<< k = x * BitVec.ofNat 32 (2 ^ k) := by
  apply BitVec.eq_of_toNat_eq
  rw [BitVec.toNat_shiftLeft, BitVec.toNat_mul, BitVec.toNat_ofNat, Nat.shiftLeft_eq]
  simp [Nat.mul_mod]

/-- **C20 (one constant operand).** Whatever the constant: `f_mul(x, number)` stores `x * number` mod `2**32`, and leaves the variable that the shifts share as it was. -/
theorem C20_number (hw : L.Wf) {C : MulAt} {sa : Src} {q number : Nat} (h : C.Ok L sa q number) :
    CompI L (SelfInv C.ad) (mulNum L C sa q number) q (fun s => sa.valM s * BitVec.ofNat 32 number) (C.scr sa q number) := by
  obtain ⟨hback, hsep, h⟩ := h
  have hmod : BitVec.ofNat 32 number = BitVec.ofNat 32 (number % 2 ^ 32) := by
    apply BitVec.eq_of_toNat_eq; simp
  intro s hi
  rw [hmod]
  unfold mulNum MulAt.scr
  cases hm : mulPow (number % 2 ^ 32) with
  | some k =>
    rw [hm] at h
    obtain ⟨hlen, hv, he, hc, ho, hn, hp, hO, hF⟩ := h
    have hnp : C.nptr ∉ [C.ad + 344, C.ad + 352] := by
      intro hx
      have := hsep _ hx
      simp [callOnly] at this
    refine (C22_lshift_const hw hv he hc ho hn hp hO hF hback hi hnp).mono ?_
    rintro s' ⟨h1, h2, h3⟩
    refine ⟨?_, h2, h3.mono ?_⟩
    · rw [h1, hlen, mulPow_some hm, shl_mul]
    · intro x hx
      simp only [List.mem_cons] at hx ⊢
      grind
  | none =>
    rw [hm] at h
    obtain ⟨ca, va, vt, cr, hta, har, hk, hF⟩ := h
    refine (fn1_call (f := fun x => x * BitVec.ofNat 32 (number % 2 ^ 32)) hw hk hF hback (fun s => mulFn_wp hw ca va vt cr hta har s) s).mono ?_
    rintro s' ⟨h1, h2⟩
    exact ⟨h1, hi.only h2 (hsep _ (by simp)) (hsep _ (by simp)), h2⟩

/-! ## Division -/

/-- Is it a power of two (muldiv.py:247, 262, 290, 356)? -/
def pow2B (n : Nat) : Bool := n &&& (n - 1) == 0

theorem pow2B_log {n : Nat} (h0 : n ≠ 0) (h : pow2B n = true) : n = 2 ^ n.log2 := by
  obtain ⟨k, rfl⟩ := (Nat.and_sub_one_eq_zero_iff_isPowerOfTwo h0).1 (by simpa [pow2B] using h)
  rw [Nat.log2_two_pow]

/-- muldiv.py:220-266: the body of the function for division by `number`.  `a` is the parameter, `q`, `r` the result variables; in `_divf` the parameter is the
second result variable (`_EUDPredefineParam(1, 2)`, `_EUDPredefineReturn(2)`). -/
def divFn (a q r n : Nat) : Stmt :=
  if n = 0 then .seq (.asg [⟨q + 348, .set, .const 0xFFFFFFFF⟩, ⟨r + 348, .set, .var a⟩]) .ret
  else if n = 1 then .seq (.asg [⟨r + 348, .set, .const 0⟩, ⟨q + 348, .set, .var a⟩]) .ret
  else if pow2B n then constDivPow (a + 348) (q + 348) n
  else constDiv (a + 348) (q + 348) n

/-- Quotient and remainder as `f_div` promises them: also for 0. -/
def quotE (x : W) (n : Nat) : W := if n = 0 then 0xFFFFFFFF else BitVec.ofNat 32 (x.toNat / n)
def remE (x : W) (n : Nat) : W := if n = 0 then x else BitVec.ofNat 32 (x.toNat % n)

theorem of_toNat {x : W} {n : Nat} (h : x.toNat = n) : x = BitVec.ofNat 32 n := by
  apply BitVec.eq_of_toNat_eq
  rw [BitVec.toNat_ofNat, ← h, Nat.mod_eq_of_lt x.isLt]

theorem divFn_wp (hw : L.Wf) {a q r n : Nat} (ca : L.cell (a + 348)) (va : n < 2 → a ∈ L.P.vars) (cq : L.cell (q + 348)) (cr : L.cell (r + 348)) (haq : a ≠ q) (hqr : q ≠ r) (har : if 2 ≤ n then a = r else a ≠ r) (s : Mem) :
    Wp L (divFn a q r n) s fun o s' => (o = .nrm ∨ o = .ret) ∧ (s' (q + 348) = quotE (s (a + 348)) n ∧ s' (r + 348) = remE (s (a + 348)) n) ∧
      Only [q + 348, r + 348] s s' := by
  unfold divFn quotE remE
  split
  · refine Wp.seqN (Does.asg (by simp [cq, cr]) (by simpa using va (by omega)) (Wp.ret ⟨Or.inr rfl, ?_, ?_⟩))
    · simp only [runAsg_cons, runAsg_nil, Src.valM, arith, get_set]
      grind
    · exact ((Only.refl _ _).set (by simp) _).set (by simp) _
  rename_i h0
  split
  · rename_i h1
    subst h1
    refine Wp.seqN (Does.asg (by simp [cq, cr]) (by simpa using va (by omega)) (Wp.ret ⟨Or.inr rfl, ?_, ?_⟩))
    · simp only [runAsg_cons, runAsg_nil, Src.valM, arith, get_set, Nat.div_one, Nat.mod_one, BitVec.ofNat_toNat, BitVec.setWidth_eq]
      have : r + 348 ≠ q + 348 := by omega
      have : a ≠ r := by simpa using har
      grind
    · exact ((Only.refl _ _).set (by simp) _).set (by simp) _
  rename_i h1
  obtain rfl : a = r := by simpa [show 2 ≤ n by omega] using har
  split
  · rename_i h2
    have e := pow2B_log h0 h2
    rw [e]
    refine Wp.mono (C21_const_pow n.log2 (ca) cq (by omega) s).wp ?_
    rintro o s' ⟨rfl, g1, g2, g3⟩
    exact ⟨Or.inl rfl, ⟨of_toNat g1, of_toNat g2⟩, g3.mono (by simp)⟩
  · refine Wp.mono (C21_const n (by omega) (ca) cq (by omega) s).wp ?_
    rintro o s' ⟨rfl, g1, g2, g3⟩
    exact ⟨Or.inl rfl, ⟨of_toNat g1, of_toNat g2⟩, g3.mono (by simp)⟩

/-- **C21 (constant divisor).** `f_div(x, number)` as a call, for every constant: quotient and remainder, for 0 `(2**32 - 1, x)`. -/
theorem C21_number (hw : L.Wf) {fend nptr fstart back a q r o1 o2 n : Nat} {sa : Src} (ca : L.cell (a + 348)) (va : n < 2 → a ∈ L.P.vars) (cq : L.cell (q + 348)) (cr : L.cell (r + 348)) (haq : a ≠ q) (hqr : q ≠ r)
    (har : if 2 ≤ n then a = r else a ≠ r) (hk : CallOk L nptr [(q, o1), (r, o2)] [(a + 348, sa)] [q + 348, r + 348])
    (hF : FuncCode L fstart fend nptr [q, r] (divFn a q r n)) (hback : back < 2 ^ 32) :
    Comp2 L (.prim (CallRel L fend nptr back (divFn a q r n) [(q, o1), (r, o2)] [(a + 348, sa)])) o1 o2
      (fun s => quotE (sa.valM s) n) (fun s => remE (sa.valM s) n) (callOnly nptr [(q, o1), (r, o2)] [(a + 348, sa)] [q + 348, r + 348]) :=
  fn12_call (f := fun x => quotE x n) (g := fun x => remE x n) hw hk hF hback fun s => divFn_wp hw ca va cq cr haq hqr har s

/-- muldiv.py:269-326: the body of the function for the quotient.  For a power of two the parameter is the result variable. -/
def quotFn (a q n : Nat) : Stmt :=
  if n = 0 then .seq (.asg [⟨q + 348, .set, .const 0xFFFFFFFF⟩]) .ret
  else if n = 1 then .seq (.asg [⟨q + 348, .set, .var a⟩]) .ret
  else if pow2B n then iopS (a + 348) (.shr n.log2)
  else constDiv (a + 348) (q + 348) n

theorem quotFn_wp (hw : L.Wf) {a q n : Nat} (hn : n < 2 ^ 32) (ca : L.cell (a + 348)) (va : n < 2 → a ∈ L.P.vars) (cq : L.cell (q + 348)) (haq : if 2 ≤ n ∧ pow2B n then a = q else a ≠ q) (s : Mem) :
    Wp L (quotFn a q n) s fun o s' => (o = .nrm ∨ o = .ret) ∧ s' (q + 348) = quotE (s (a + 348)) n ∧ Only [q + 348, a + 348] s s' := by
  unfold quotFn quotE
  split
  · refine Wp.seqN (Does.asg (by simp [cq]) (by simp) (Wp.ret ⟨Or.inr rfl, ?_, (Only.refl _ _).set (by simp) _⟩))
    simp [runAsg, arith, Src.valM, set_eq]
  rename_i h0
  split
  · rename_i h1
    subst h1
    refine Wp.seqN (Does.asg (by simp [cq]) (by simpa using va (by omega)) (Wp.ret ⟨Or.inr rfl, ?_, (Only.refl _ _).set (by simp) _⟩))
    simp [runAsg, arith, Src.valM, set_eq]
  rename_i h1
  split
  · rename_i h2
    rw [if_pos ⟨by omega, h2⟩] at haq
    subst haq
    have e := pow2B_log h0 h2
    have hl : n.log2 ≤ 32 := by
      have := (Nat.pow_lt_pow_iff_right (a := 2) (by omega)).1 (e ▸ hn : 2 ^ n.log2 < 2 ^ 32)
      omega
    refine Wp.mono (iop_does (o := .shr n.log2) hl cq s).wp ?_
    rintro o s' ⟨rfl, rfl⟩
    refine ⟨Or.inl rfl, ?_, (Only.refl _ _).set (by simp) _⟩
    rw [set_eq]
    refine of_toNat ?_
    simp only [IOp.spec, BitVec.toNat_ushiftRight, Nat.shiftRight_eq_div_pow]
    rw [← e]
  · rename_i h2
    rw [if_neg (by simp [h2])] at haq
    refine Wp.mono (C21_const n (by omega) (ca) cq (by omega) s).wp ?_
    rintro o s' ⟨rfl, g1, g2, g3⟩
    exact ⟨Or.inl rfl, of_toNat g1, g3.mono (by simp)⟩

/-- **C21 (quotient by a constant)**, as in `x // number`. -/
theorem C21_number_quot (hw : L.Wf) {fend nptr fstart back a q o n : Nat} {sa : Src} (hn : n < 2 ^ 32) (ca : L.cell (a + 348)) (va : n < 2 → a ∈ L.P.vars) (cq : L.cell (q + 348))
    (haq : if 2 ≤ n ∧ pow2B n then a = q else a ≠ q) (hk : CallOk L nptr [(q, o)] [(a + 348, sa)] [q + 348, a + 348])
    (hF : FuncCode L fstart fend nptr [q] (quotFn a q n)) (hback : back < 2 ^ 32) :
    Comp L (.prim (CallRel L fend nptr back (quotFn a q n) [(q, o)] [(a + 348, sa)])) o (fun s => quotE (sa.valM s) n)
      (callOnly nptr [(q, o)] [(a + 348, sa)] [q + 348, a + 348]) :=
  fn1_call (f := fun x => quotE x n) hw hk hF hback fun s => quotFn_wp hw hn ca va cq haq s

/-- muldiv.py:329-380: the body of the function for the remainder.  From 2 on the parameter is the result variable. -/
def remFn (a r n : Nat) : Stmt :=
  if n = 0 then .seq (.asg [⟨r + 348, .set, .var a⟩]) .ret
  else if n = 1 then .seq (.asg [⟨r + 348, .set, .const 0⟩]) .ret
  else if pow2B n then iopS (a + 348) (.and (BitVec.ofNat 32 (n - 1)))
  else constRem (a + 348) n

theorem remFn_wp (hw : L.Wf) {a r n : Nat} (hn : n < 2 ^ 32) (ca : L.cell (a + 348)) (va : n < 2 → a ∈ L.P.vars) (cr : L.cell (r + 348)) (har : 2 ≤ n → a = r) (s : Mem) :
    Wp L (remFn a r n) s fun o s' => (o = .nrm ∨ o = .ret) ∧ s' (r + 348) = remE (s (a + 348)) n ∧ Only [r + 348] s s' := by
  unfold remFn remE
  split
  · refine Wp.seqN (Does.asg (by simp [cr]) (by simpa using va (by omega)) (Wp.ret ⟨Or.inr rfl, ?_, (Only.refl _ _).set (by simp) _⟩))
    simp [runAsg, arith, Src.valM, set_eq]
  rename_i h0
  split
  · rename_i h1
    subst h1
    refine Wp.seqN (Does.asg (by simp [cr]) (by simp) (Wp.ret ⟨Or.inr rfl, ?_, (Only.refl _ _).set (by simp) _⟩))
    simp [runAsg, arith, Src.valM, set_eq, Nat.mod_one]
  rename_i h1
  obtain rfl : a = r := har (by omega)
  split
  · rename_i h2
    have e := pow2B_log h0 h2
    refine Wp.mono (iop_does (o := .and (BitVec.ofNat 32 (n - 1))) trivial cr s).wp ?_
    rintro o s' ⟨rfl, rfl⟩
    refine ⟨Or.inl rfl, ?_, (Only.refl _ _).set (by simp) _⟩
    rw [set_eq]
    refine of_toNat ?_
    simp only [IOp.spec, BitVec.toNat_and, BitVec.toNat_ofNat]
    rw [Nat.mod_eq_of_lt (by omega), e, Nat.and_two_pow_sub_one_eq_mod]
  · refine Wp.mono (C21_const_rem n (by omega) cr s).wp ?_
    rintro o s' ⟨rfl, g1, g2⟩
    exact ⟨Or.inl rfl, of_toNat g1, g2⟩

/-- **C21 (remainder by a constant)**, as in `x % number`. -/
theorem C21_number_rem (hw : L.Wf) {fend nptr fstart back a r o n : Nat} {sa : Src} (hn : n < 2 ^ 32) (ca : L.cell (a + 348)) (va : n < 2 → a ∈ L.P.vars) (cr : L.cell (r + 348)) (har : 2 ≤ n → a = r)
    (hk : CallOk L nptr [(r, o)] [(a + 348, sa)] [r + 348]) (hF : FuncCode L fstart fend nptr [r] (remFn a r n)) (hback : back < 2 ^ 32) :
    Comp L (.prim (CallRel L fend nptr back (remFn a r n) [(r, o)] [(a + 348, sa)])) o (fun s => remE (sa.valM s) n)
      (callOnly nptr [(r, o)] [(a + 348, sa)] [r + 348]) :=
  fn1_call (f := fun x => remE x n) hw hk hF hback fun s => remFn_wp hw hn ca va cr har s

/-! ## Shifts by a constant -/

/-- bitwise.py:156-160 and 191-196, 215-223: shift by a constant that is not in 1..10 (left), or by any constant (right): copy unless the result is the operand itself, then shift in
place; nothing to shift by 0. -/
def shiftC (a r : Nat) (o : Nat → IOp) (k : Nat) : Stmt :=
  .seq (if a = r then .skip else .asg [⟨r + 348, .set, .var a⟩]) (if k = 0 then .skip else iopS (r + 348) (o k))

theorem shiftC_does (hw : L.Wf) {a r k : Nat} {o : Nat → IOp} (va : a ∈ L.P.vars) (vr : r ∈ L.P.vars) (h : k ≠ 0 → (o k).Fits) (s : Mem) :
    Does L (shiftC a r o k) s fun s' => s' (r + 348) = (if k = 0 then s (a + 348) else (o k).spec (s (a + 348))) ∧ Only [r + 348] s s' := by
  have h1 : Does L (if a = r then .skip else .asg [⟨r + 348, .set, .var a⟩]) s fun s1 => s1 (r + 348) = s (a + 348) ∧ Only [r + 348] s s1 := by
    split
    · rename_i e; subst e; exact Does.skip ⟨rfl, Only.refl _ _⟩
    · refine Does.asg (by simpa using cell_val hw vr) (by simpa using va) ⟨?_, (Only.refl _ _).set (by simp) _⟩
      simp [runAsg, arith, Src.valM, set_eq]
  refine Does.seq (h1.mono ?_)
  rintro s1 ⟨e1, e2⟩
  split
  · exact Does.skip ⟨e1, e2⟩
  · rename_i hk
    refine (iop_does (h hk) (cell_val hw vr) s1).mono ?_
    rintro s' rfl
    exact ⟨by rw [set_eq, e1], e2.set (by simp) _⟩

/-- **C22 (shifts by a constant).** The left shift by 0 or by more than 10, the right shift by any constant up to 32. -/
theorem C22_shl_const (hw : L.Wf) {a r k : Nat} (va : a ∈ L.P.vars) (vr : r ∈ L.P.vars) (h : k ≤ 32) (s : Mem) :
    Does L (shiftC a r .shl k) s fun s' => s' (r + 348) = s (a + 348) <<< k ∧ Only [r + 348] s s' := by
  refine (shiftC_does hw va vr (o := .shl) (fun h0 => ⟨by omega, h⟩) s).mono ?_
  rintro s' ⟨h1, h2⟩
  refine ⟨?_, h2⟩
  rw [h1]
  split
  · rename_i h0; subst h0; simp
  · rfl

theorem C22_shr_const (hw : L.Wf) {a r k : Nat} (va : a ∈ L.P.vars) (vr : r ∈ L.P.vars) (h : k ≤ 32) (s : Mem) :
    Does L (shiftC a r .shr k) s fun s' => s' (r + 348) = s (a + 348) >>> k ∧ Only [r + 348] s s' := by
  refine (shiftC_does hw va vr (o := .shr) (fun h0 => h) s).mono ?_
  rintro s' ⟨h1, h2⟩
  refine ⟨?_, h2⟩
  rw [h1]
  split
  · rename_i h0; subst h0; simp
  · rfl

end Eud.SC
