import Verif.Machine.Wp
import Verif.Machine.VMask
import Verif.Machine.Mul
/-
C53, C22: operators between variables (core/variable/eudv.py:263-620).  `x`, `y`, `t` are variables (the value of a variable `v` is at
`v + 348`); `w` is the address of the action that the code completes before running it.

Which of the forms is emitted depends on whether an operand is a temporary, found out by counting references (eudv.py:46-54), which is
not modelled: all the forms are.
-/

namespace Eud.SC

theorem runAsg_nil (s : Mem) : runAsg [] s = s := rfl
theorem runAsg_cons (g : Asg) (gs : List Asg) (s : Mem) : runAsg (g :: gs) s = runAsg gs (s.set g.a (arith g.md (s g.a) (g.src.valM s))) := rfl

/-- Subtracting from all ones never saturates. -/
theorem ones_sub (y : W) : arith .sub 0xFFFFFFFF y = ~~~y := by
  have hy := y.isLt
  simp only [arith]
  rw [if_neg]
  · apply BitVec.eq_of_toNat_eq
    rw [BitVec.toNat_sub, BitVec.toNat_not]
    simp only [BitVec.ofNat_eq_ofNat, BitVec.toNat_ofNat]
    omega
  · rw [BitVec.lt_def]
    simp only [BitVec.ofNat_eq_ofNat, BitVec.toNat_ofNat]
    omega

theorem not_add (x y : W) : ~~~y + 1 + x = x - y := by
  rw [BitVec.add_comm, ← sub_not, BitVec.add_comm (~~~y), BitVec.add_assoc]

theorem not_add_const (y k : W) : ~~~y + (k + 1) = k - y := by
  rw [BitVec.add_comm k, ← BitVec.add_assoc, not_add]

theorem and_not_not (x y : W) : modify .set x 0 (~~~y) = x &&& y := set_and x y

/-! ## The code -/

/-- eudv.py:281-297 `x + y` into a new variable -/
def opAdd (t x : Nat) (y : Src) : Stmt := .asg [⟨t + 348, .set, y⟩, ⟨t + 348, .add, .var x⟩]
/-- eudv.py:299-338 `x - y` for a variable `y` -/
def opSub (t x y : Nat) : Stmt :=
  .asg [⟨t + 348, .set, .const 0xFFFFFFFF⟩, ⟨t + 348, .sub, .var y⟩, ⟨t + 348, .add, .const 1⟩, ⟨t + 348, .add, .var x⟩]
/-- eudv.py:299-338 `x - k` -/
def opSubC (t x : Nat) (k : W) : Stmt := .asg [⟨t + 348, .set, .const (-k)⟩, ⟨t + 348, .add, .var x⟩]
/-- eudv.py:299-338 `x - y` when `y` is a temporary: the result is in `y` -/
def opSubT (x y : Nat) : Stmt :=
  .seq (.trig [] [aMemX (y + 348) .add 0xFFFFFFFF 0x55555555, aMemX (y + 348) .add 0xFFFFFFFF 0xAAAAAAAA, aMem (y + 348) .add 1])
    (.asg [⟨y + 348, .add, .var x⟩])
/-- eudv.py:340-370 `k - x` -/
def opRsubC (t x : Nat) (k : W) : Stmt := .asg [⟨t + 348, .set, .const 0xFFFFFFFF⟩, ⟨t + 348, .sub, .var x⟩, ⟨t + 348, .add, .const (k + 1)⟩]
/-- eudv.py:340-370 `k - x` when `x` is a temporary -/
def opRsubT (x : Nat) (k : W) : Stmt :=
  .trig [] [aMemX (x + 348) .add 0xFFFFFFFF 0x55555555, aMemX (x + 348) .add 0xFFFFFFFF 0xAAAAAAAA, aMem (x + 348) .add (k + 1)]
/-- eudv.py:372-375 `-x` -/
def opNeg (t x : Nat) : Stmt := opRsubC t x 0
/-- eudv.py:377-382 `~x` -/
def opInv (t x : Nat) : Stmt := .asg [⟨t + 348, .set, .const 0xFFFFFFFF⟩, ⟨t + 348, .sub, .var x⟩]
/-- eudv.py:386-394 `x |= y`: `w` is the action `x.SetNumberX(0xFFFFFFFF, 0)`, whose mask is overwritten. -/
def opIor (x y w : Nat) : Stmt := .seq (.asg [⟨w, .set, .var y⟩]) (.trig [] [aMemK (x + 348) .set 0xFFFFFFFF w])
/-- eudv.py:396-409 `x &= y`: `w` is the action `x.SetNumberX(0, ..)`. -/
def opIand (x y w : Nat) : Stmt :=
  .seq (.asg [⟨w, .set, .const 0xFFFFFFFF⟩, ⟨w, .sub, .var y⟩]) (.trig [] [aMemK (x + 348) .set 0 w])
/-- eudv.py:413-434 `x & y` -/
def opAnd (t x y w : Nat) : Stmt :=
  .seq (.asg [⟨w, .set, .const 0xFFFFFFFF⟩, ⟨t + 348, .set, .var x⟩, ⟨w, .sub, .var y⟩]) (.trig [] [aMemK (t + 348) .set 0 w])
/-- eudv.py:456-471 `x | y` -/
def opOr (t x y w : Nat) : Stmt :=
  .seq (.asg [⟨t + 348, .set, .var x⟩, ⟨w, .set, .var y⟩]) (.trig [] [aMemK (t + 348) .set 0xFFFFFFFF w])
/-- vbase.py `iinvert` -/
def opIinv (x : Nat) : Stmt := .trig [] [aMemX (x + 348) .add 0xFFFFFFFF 0x55555555, aMemX (x + 348) .add 0xFFFFFFFF 0xAAAAAAAA]

/-! ## What it does -/

variable {L : Layout}

theorem C53_add (hw : L.Wf) {t x : Nat} {y : Src} (ht : t ∈ L.P.vars) (hx : x ∈ L.P.vars) (hy : ∀ v, y = .var v → v ∈ L.P.vars) (hne : t ≠ x) (s : Mem) :
    Does L (opAdd t x y) s fun s' => s' (t + 348) = s (x + 348) + y.valM s ∧ Only [t + 348] s s' := by
  refine Does.asg (by simp; exact cell_val hw ht) (by simp; exact ⟨fun v e => hy v e, hx⟩) ?_
  have h1 : x + 348 ≠ t + 348 := by omega
  simp only [runAsg_cons, runAsg_nil, arith, Src.valM, set_eq, set_ne h1]
  exact ⟨BitVec.add_comm _ _, (Only.set (Only.set (Only.refl _ _) (by simp) _) (by simp) _)⟩

theorem C53_sub (hw : L.Wf) {t x y : Nat} (ht : t ∈ L.P.vars) (hx : x ∈ L.P.vars) (hy : y ∈ L.P.vars) (hne : t ≠ x) (hne' : t ≠ y) (s : Mem) :
    Does L (opSub t x y) s fun s' => s' (t + 348) = s (x + 348) - s (y + 348) ∧ Only [t + 348] s s' := by
  refine Does.asg (by simp; exact cell_val hw ht) (by simp; exact ⟨hy, hx⟩) ?_
  have h1 : x + 348 ≠ t + 348 := by omega
  have h2 : y + 348 ≠ t + 348 := by omega
  simp only [runAsg_cons, runAsg_nil, Src.valM, set_eq, set_ne h1, set_ne h2]
  refine ⟨?_, ?_⟩
  · rw [show ∀ a b : W, arith .set a b = b from fun _ _ => rfl, ones_sub]
    exact not_add _ _
  · exact Only.set (Only.set (Only.set (Only.set (Only.refl _ _) (by simp) _) (by simp) _) (by simp) _) (by simp) _

theorem C53_sub_const (hw : L.Wf) {t x : Nat} (k : W) (ht : t ∈ L.P.vars) (hx : x ∈ L.P.vars) (hne : t ≠ x) (s : Mem) :
    Does L (opSubC t x k) s fun s' => s' (t + 348) = s (x + 348) - k ∧ Only [t + 348] s s' := by
  refine (C53_add hw ht hx (y := .const (-k)) (by simp) hne s).mono ?_
  rintro s' ⟨h1, h2⟩
  exact ⟨by rw [h1]; simp only [Src.valM]; rw [← BitVec.sub_eq_add_neg], h2⟩

theorem inv_acts {a : Nat} (ha : L.cell a) {as : List PA} {s : Mem} (h : ActsOk L as (s.set a (~~~ s a))) :
    ActsOk L (aMemX a .add 0xFFFFFFFF 0x55555555 :: aMemX a .add 0xFFFFFFFF 0xAAAAAAAA :: as) s ∧
    runPA (aMemX a .add 0xFFFFFFFF 0x55555555 :: aMemX a .add 0xFFFFFFFF 0xAAAAAAAA :: as) s = runPA as (s.set a (~~~ s a)) := by
  have e : (aMemX a .add 0xFFFFFFFF 0xAAAAAAAA).run ((aMemX a .add 0xFFFFFFFF 0x55555555).run s) = s.set a (~~~ s a) := by
    simp only [aMemX_run, set_eq, set_set, xor_two, xor_ones]
  refine ⟨actsOk_memX ha (actsOk_memX ha ?_), ?_⟩
  · rw [e]; exact h
  · simp only [runPA_cons, e]

/-- The temporary `y` ends up with `x - y`; `x` must be another variable, which a temporary always is. -/
theorem C53_sub_temp (hw : L.Wf) {x y : Nat} (hx : x ∈ L.P.vars) (hy : y ∈ L.P.vars) (hne : x ≠ y) (s : Mem) :
    Does L (opSubT x y) s fun s' => s' (y + 348) = s (x + 348) - s (y + 348) ∧ Only [y + 348] s s' := by
  have hc := cell_val hw hy
  obtain ⟨i1, i2⟩ := inv_acts (as := [aMem (y + 348) .add 1]) (s := s) hc (actsOk_mem hc trivial)
  refine Does.seq (Does.acts i1 (Does.asg (by simpa using hc) (by simpa using hx) ?_))
  have h1 : x + 348 ≠ y + 348 := by omega
  simp only [i2, runPA_cons, runPA_nil, aMem_run, runAsg_cons, runAsg_nil, Src.valM, set_eq, set_ne h1, arith]
  exact ⟨not_add _ _, Only.set (Only.set (Only.set (Only.refl _ _) (by simp) _) (by simp) _) (by simp) _⟩

theorem C53_rsub_const (hw : L.Wf) {t x : Nat} (k : W) (ht : t ∈ L.P.vars) (hx : x ∈ L.P.vars) (hne : t ≠ x) (s : Mem) :
    Does L (opRsubC t x k) s fun s' => s' (t + 348) = k - s (x + 348) ∧ Only [t + 348] s s' := by
  refine Does.asg (by simp; exact cell_val hw ht) (by simp; exact hx) ?_
  have h1 : x + 348 ≠ t + 348 := by omega
  simp only [runAsg_cons, runAsg_nil, Src.valM, set_eq, set_ne h1]
  refine ⟨?_, ?_⟩
  · rw [show ∀ a b : W, arith .set a b = b from fun _ _ => rfl, ones_sub]
    exact not_add_const _ _
  · exact Only.set (Only.set (Only.set (Only.refl _ _) (by simp) _) (by simp) _) (by simp) _

theorem C53_rsub_temp (hw : L.Wf) {x : Nat} (k : W) (hx : x ∈ L.P.vars) (s : Mem) :
    Does L (opRsubT x k) s fun s' => s' (x + 348) = k - s (x + 348) ∧ Only [x + 348] s s' := by
  have hc := cell_val hw hx
  obtain ⟨i1, i2⟩ := inv_acts (as := [aMem (x + 348) .add (k + 1)]) (s := s) hc (actsOk_mem hc trivial)
  refine Does.acts i1 ?_
  simp only [i2, runPA_cons, runPA_nil, aMem_run, set_eq, arith]
  exact ⟨not_add_const _ _, Only.set (Only.set (Only.refl _ _) (by simp) _) (by simp) _⟩

theorem C53_neg (hw : L.Wf) {t x : Nat} (ht : t ∈ L.P.vars) (hx : x ∈ L.P.vars) (hne : t ≠ x) (s : Mem) :
    Does L (opNeg t x) s fun s' => s' (t + 348) = - s (x + 348) ∧ Only [t + 348] s s' := by
  refine (C53_rsub_const hw 0 ht hx hne s).mono ?_
  rintro s' ⟨h1, h2⟩
  exact ⟨by rw [h1]; exact BitVec.zero_sub _, h2⟩

theorem C53_invert (hw : L.Wf) {t x : Nat} (ht : t ∈ L.P.vars) (hx : x ∈ L.P.vars) (hne : t ≠ x) (s : Mem) :
    Does L (opInv t x) s fun s' => s' (t + 348) = ~~~ s (x + 348) ∧ Only [t + 348] s s' := by
  refine Does.asg (by simp; exact cell_val hw ht) (by simp; exact hx) ?_
  have h1 : x + 348 ≠ t + 348 := by omega
  simp only [runAsg_cons, runAsg_nil, Src.valM, set_eq, set_ne h1]
  refine ⟨?_, ?_⟩
  · rw [show ∀ a b : W, arith .set a b = b from fun _ _ => rfl, ones_sub]
  · exact Only.set (Only.set (Only.refl _ _) (by simp) _) (by simp) _

theorem C53_ior (hw : L.Wf) {x y w : Nat} (hx : x ∈ L.P.vars) (hy : y ∈ L.P.vars) (hcw : L.cell w) (h1 : w ≠ x + 348) (s : Mem) :
    Does L (opIor x y w) s fun s' => s' (x + 348) = s (x + 348) ||| s (y + 348) ∧ Only [x + 348, w] s s' := by
  refine Does.seq (Does.asg (by simpa using hcw) (by simpa using hy) (Does.acts (actsOk_memK (cell_val hw hx) trivial) ?_))
  simp only [runPA_cons, runPA_nil, aMemK_run, runAsg_cons, runAsg_nil, Src.valM, set_eq, set_ne h1.symm, arith, set_or]
  exact ⟨trivial, Only.set (Only.set (Only.refl _ _) (by simp) _) (by simp) _⟩

theorem C53_iand (hw : L.Wf) {x y w : Nat} (hx : x ∈ L.P.vars) (hy : y ∈ L.P.vars) (hcw : L.cell w) (h1 : w ≠ x + 348) (h2 : w ≠ y + 348) (s : Mem) :
    Does L (opIand x y w) s fun s' => s' (x + 348) = s (x + 348) &&& s (y + 348) ∧ Only [x + 348, w] s s' := by
  refine Does.seq (Does.asg (by simpa using hcw) (by simpa using hy) (Does.acts (actsOk_memK (cell_val hw hx) trivial) ?_))
  simp only [runPA_cons, runPA_nil, aMemK_run, runAsg_cons, runAsg_nil, Src.valM, set_eq, set_ne h1.symm, set_ne h2.symm,
    show ∀ a b : W, arith .set a b = b from fun _ _ => rfl, ones_sub, set_and]
  exact ⟨trivial, Only.set (Only.set (Only.set (Only.refl _ _) (by simp) _) (by simp) _) (by simp) _⟩

theorem C53_and (hw : L.Wf) {t x y w : Nat} (ht : t ∈ L.P.vars) (hx : x ∈ L.P.vars) (hy : y ∈ L.P.vars) (hcw : L.cell w) (hty : t ≠ y)
    (h0 : w ≠ t + 348) (h1 : w ≠ x + 348) (h2 : w ≠ y + 348) (s : Mem) :
    Does L (opAnd t x y w) s fun s' => s' (t + 348) = s (x + 348) &&& s (y + 348) ∧ Only [t + 348, w] s s' := by
  refine Does.seq (Does.asg (by simp; exact ⟨hcw, cell_val hw ht, hcw⟩) (by simpa using ⟨hx, hy⟩) (Does.acts (actsOk_memK (cell_val hw ht) trivial) ?_))
  have h3 : y + 348 ≠ t + 348 := by omega
  simp only [runPA_cons, runPA_nil, aMemK_run, runAsg_cons, runAsg_nil, Src.valM, set_eq, set_ne h1.symm, set_ne h2.symm, set_ne h0, set_ne h0.symm,
    set_ne h3, show ∀ a b : W, arith .set a b = b from fun _ _ => rfl, ones_sub, set_and]
  exact ⟨trivial, Only.set (Only.set (Only.set (Only.set (Only.refl _ _) (by simp) _) (by simp) _) (by simp) _) (by simp) _⟩

theorem C53_or (hw : L.Wf) {t x y w : Nat} (ht : t ∈ L.P.vars) (hx : x ∈ L.P.vars) (hy : y ∈ L.P.vars) (hcw : L.cell w) (hty : t ≠ y)
    (h0 : w ≠ t + 348) (s : Mem) :
    Does L (opOr t x y w) s fun s' => s' (t + 348) = s (x + 348) ||| s (y + 348) ∧ Only [t + 348, w] s s' := by
  refine Does.seq (Does.asg (by simpa using ⟨cell_val hw ht, hcw⟩) (by simpa using ⟨hx, hy⟩) (Does.acts (actsOk_memK (cell_val hw ht) trivial) ?_))
  have h3 : y + 348 ≠ t + 348 := by omega
  simp only [runPA_cons, runPA_nil, aMemK_run, runAsg_cons, runAsg_nil, Src.valM, set_eq, set_ne h0.symm,
    set_ne h3, arith, set_or]
  exact ⟨trivial, Only.set (Only.set (Only.set (Only.refl _ _) (by simp) _) (by simp) _) (by simp) _⟩

theorem C53_iinvert (hw : L.Wf) {x : Nat} (hx : x ∈ L.P.vars) (s : Mem) :
    Does L (opIinv x) s fun s' => s' (x + 348) = ~~~ s (x + 348) ∧ Only [x + 348] s s' := by
  obtain ⟨i1, i2⟩ := inv_acts (as := []) (s := s) (cell_val hw hx) trivial
  refine Does.acts i1 ?_
  rw [i2]
  exact ⟨set_eq _ _ _, Only.set (Only.refl _ _) (by simp) _⟩

/-! ## C22: the functions for bitwise operations -/

/-- bitwise.py:33-38 `f_bitnand` -/
def opNand (t x y w : Nat) : Stmt := .seq (opAnd t x y w) (opIinv t)
/-- bitwise.py:41-46 `f_bitnor` -/
def opNor (t x y w : Nat) : Stmt := .seq (opOr t x y w) (opIinv t)

theorem C22_nand (hw : L.Wf) {t x y w : Nat} (ht : t ∈ L.P.vars) (hx : x ∈ L.P.vars) (hy : y ∈ L.P.vars) (hcw : L.cell w) (hty : t ≠ y)
    (h0 : w ≠ t + 348) (h1 : w ≠ x + 348) (h2 : w ≠ y + 348) (s : Mem) :
    Does L (opNand t x y w) s fun s' => s' (t + 348) = ~~~ (s (x + 348) &&& s (y + 348)) ∧ Only [t + 348, w] s s' := by
  refine Does.seq ((C53_and hw ht hx hy hcw hty h0 h1 h2 s).mono ?_)
  rintro s1 ⟨g1, g2⟩
  refine (C53_iinvert hw ht s1).mono ?_
  rintro s2 ⟨g3, g4⟩
  exact ⟨by rw [g3, g1], g2.trans (g4.mono (by simp))⟩

theorem C22_nor (hw : L.Wf) {t x y w : Nat} (ht : t ∈ L.P.vars) (hx : x ∈ L.P.vars) (hy : y ∈ L.P.vars) (hcw : L.cell w) (hty : t ≠ y)
    (h0 : w ≠ t + 348) (s : Mem) :
    Does L (opNor t x y w) s fun s' => s' (t + 348) = ~~~ (s (x + 348) ||| s (y + 348)) ∧ Only [t + 348, w] s s' := by
  refine Does.seq ((C53_or hw ht hx hy hcw hty h0 s).mono ?_)
  rintro s1 ⟨g1, g2⟩
  refine (C53_iinvert hw ht s1).mono ?_
  rintro s2 ⟨g3, g4⟩
  exact ⟨by rw [g3, g1], g2.trans (g4.mono (by simp))⟩

/-- bitwise.py:63-73 `f_bitsplit`; `bs i` is the value of the `i`th result. -/
def bitSplit (a : Nat) (bs : Nat → Nat) : Stmt :=
  .seq (.trig [] ((List.range 32).map fun i => aMem (bs i) .set 0))
    (.seqs ((List.range 32).reverse.map fun i => .trig [cMemX a .atLeast 1 (pow2 i)] [aMem (bs i) .set 1]))

theorem runPA_sets (bs : Nat → Nat) (k : Nat → W) : ∀ (l : List Nat) (s : Mem), (∀ i ∈ l, L.cell (bs i)) →
    ActsOk L (l.map fun i => aMem (bs i) .set (k i)) s
  | [], _, _ => trivial
  | i :: l, s, h => actsOk_mem (h i (by simp)) (runPA_sets bs k l _ fun j hj => h j (by simp [hj]))

theorem runPA_zero (bs : Nat → Nat) : ∀ (l : List Nat) (s : Mem) (x : Nat), runPA (l.map fun i => aMem (bs i) .set 0) s x = if x ∈ l.map bs then 0 else s x
  | [], _, _ => by simp [runPA_nil]
  | i :: l, s, x => by
    simp only [List.map_cons, runPA_cons, aMem_run, arith]
    rw [runPA_zero bs l]
    by_cases h : x ∈ l.map bs
    · rw [if_pos h, if_pos (by simp [h])]
    · by_cases e : x = bs i
      · subst e; rw [if_neg h, if_pos (by simp), set_eq]
      · rw [if_neg h, if_neg (by simp only [List.mem_cons]; exact fun hh => hh.elim e h), set_ne e]

/-- **C22 (splitting).** The results are the bits, lowest first. -/
theorem C22_bitsplit {a : Nat} {bs : Nat → Nat} (ha : L.cell a) (hb : ∀ i, i < 32 → L.cell (bs i)) (hinj : ∀ i j, i < 32 → j < 32 → bs i = bs j → i = j)
    (hab : ∀ i, i < 32 → a ≠ bs i) (s : Mem) :
    Does L (bitSplit a bs) s fun s' => (∀ i, i < 32 → s' (bs i) = if (s a).getLsbD i then 1 else 0) ∧ Only ((List.range 32).map bs) s s' := by
  refine Does.seq (Does.acts (runPA_sets bs _ _ _ (by simpa using hb)) ?_)
  refine (Does.chain (L := L) (fun i => Stmt.trig [cMemX a .atLeast 1 (pow2 i)] [aMem (bs i) .set 1])
    (fun l s' => (∀ i, i < 32 → s' (bs i) = if i ∉ l ∧ (s a).getLsbD i then 1 else 0) ∧ Only ((List.range 32).map bs) s s' ∧ l.Nodup) _ _ ?_ ?_).mono ?_
  · refine ⟨?_, ?_, ?_⟩
    · intro i hi
      rw [runPA_zero, if_pos (by simp; exact ⟨i, hi, rfl⟩), if_neg (by simp; intro h; omega)]
    · intro x hx
      rw [runPA_zero, if_neg hx]
    · exact (List.pairwise_reverse (R := fun a b => a ≠ b)).2 (List.nodup_range.imp fun h => h.symm)
  · rintro i k s1 hi ⟨h1, h2, h3⟩
    have hi : i < 32 := by simpa using hi
    have hsa : s1 a = s a := h2 a (by simp; exact fun j hj e => hab j hj e.symm)
    have hk : i ∉ k := (List.nodup_cons.1 h3).1
    refine Does.trig (by simp; exact cMemX_ok ha _ _ _ _) ?_ ?_ <;>
      simp only [holdsAll_cons, holdsAll_nil, Bool.and_true, cMemX_holds, runPA_cons, runPA_nil, aMem_run, hsa, pow2_bit _ hi] <;> intro hc
    · refine ⟨actsOk_mem (hb i hi) trivial, ?_, h2.set (by simp; exact ⟨i, hi, rfl⟩) _, (List.nodup_cons.1 h3).2⟩
      intro j hj
      by_cases e : j = i
      · subst e
        rw [set_eq, if_pos ⟨hk, hc⟩]; rfl
      · rw [set_ne (fun h => e (hinj _ _ hj hi h)), h1 j hj]
        simp [e]
    · refine ⟨?_, h2, (List.nodup_cons.1 h3).2⟩
      intro j hj
      rw [h1 j hj]
      by_cases e : j = i
      · subst e; simp [hc]
      · simp [e]
  · rintro s' ⟨h1, h2, -⟩
    exact ⟨fun i hi => by simpa using h1 i hi, h2⟩

end Eud.SC
