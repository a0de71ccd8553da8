import Verif.Lib.MulCall
import Verif.Lib.Compare
/-
C46: binary searches (eudlib/utilf/binsearch.py); C45: the square root (eudlib/mathf/sqrt.py).
-/

namespace Eud.SC

variable {L : Layout}

/-- Code together with the conditions it prepares. -/
structure Test where
  pre : Stmt
  cs : List PC

/-- As long as `I` holds, which stays so, the test is true when the value of `x` satisfies `p`. -/
def Test.Is (L : Layout) (I : Mem → Prop) (x : Nat) (p : Nat → Bool) (scr : List Nat) (t : Test) : Prop :=
  ∀ s, I s → Does L t.pre s fun s' => (∀ c ∈ t.cs, c.Ok L s') ∧ holdsAll s' t.cs = p (s (x + 348)).toNat ∧ I s' ∧ Only scr s s'

/-! ## The code -/

/-- binsearch.py:43-46, 49-51: go back if the test fails -/
def backMax (x i : Nat) (t : Test) : Stmt := .ite t.pre t.cs .skip (.trig [] [aMem (x + 348) .sub (pow2 i)])

/-- binsearch.py:48-51: the rounds after the first, down to 0 -/
def roundsMax (x : Nat) (t : Nat → Test) : Nat → Stmt
  | 0 => .skip
  | i + 1 => .seq (.asg [⟨x + 348, .add, .const (pow2 i)⟩]) (.seq (backMax x i (t i)) (roundsMax x t i))

/-- binsearch.py:37-52: `init` is `x << minv + 2**k`, where `k` is the first exponent that is not skipped; `t0` is the test `cond(x)`
and `t i` is `[x <= maxv, cond(x)]`. -/
def binMax (x k : Nat) (init : Stmt) (t0 : Test) (t : Nat → Test) : Stmt :=
  .seq init (.seq (backMax x k t0) (roundsMax x t k))

/-- binsearch.py:85-88, 92-94 -/
def backMin (x i : Nat) (t : Test) : Stmt := .ite t.pre t.cs .skip (.asg [⟨x + 348, .add, .const (pow2 i)⟩])

/-- binsearch.py:90-95 -/
def roundsMin (x : Nat) (t : Nat → Test) : Nat → Stmt
  | 0 => .skip
  | i + 1 => .seq (.ite .skip [cMem (x + 348) .atLeast (pow2 i)] (.seq (.trig [] [aMem (x + 348) .sub (pow2 i)]) (backMin x i (t i))) .skip) (roundsMin x t i)

/-- binsearch.py:79-96: `init` is `x << maxv - 2**k`. -/
def binMin (x k : Nat) (init : Stmt) (t0 : Test) (t : Nat → Test) : Stmt :=
  .seq init (.seq (backMin x k t0) (roundsMin x t k))

/-- binsearch.py:31-41, 73-83: the first exponent that is not skipped, for two integers.  If they are equal then nothing is skipped, as `r` is false. -/
def firstExp (lo hi : Nat) : Nat := if hi - lo = 0 then 31 else (hi - lo).log2

/-! ## What it does -/

/-- What both need. -/
structure BinOk (L : Layout) (I : Mem → Prop) (x : Nat) (scr : List Nat) : Prop where
  cx : L.cell (x + 348)
  xs : x + 348 ∉ scr
  hI : ∀ s w, I s → I (s.set (x + 348) w)

section
variable {I : Mem → Prop} {x : Nat} {scr : List Nat}

theorem toNat_pow2 {i : Nat} (h : i < 32) : (pow2 i).toNat = 2 ^ i := by
  rw [pow2, BitVec.toNat_twoPow, Nat.mod_eq_of_lt (Nat.pow_lt_pow_right (by omega) h)]

/-- A test and going back. -/
theorem backMax_does (h : BinOk L I x scr) {t : Test} {p : Nat → Bool} (ht : t.Is L I x p scr) {i : Nat} (hi : i < 32) {s : Mem} (hI : I s) {v : Nat}
    (hv : (s (x + 348)).toNat = v + 2 ^ i) :
    Does L (backMax x i t) s fun s' => (s' (x + 348)).toNat = (if p (v + 2 ^ i) then v + 2 ^ i else v) ∧ I s' ∧ Only ((x + 348) :: scr) s s' := by
  refine Does.ite ((ht s hI).mono ?_)
  rintro s1 ⟨hc, hh, i1, o1⟩
  rw [hv] at hh
  have o2 : Only ((x + 348) :: scr) s s1 := o1.mono (by simp; intro z hz; simp [hz])
  have e1 : s1 (x + 348) = s (x + 348) := o1 _ h.xs
  refine ⟨hc, ?_, ?_⟩
  · intro hp
    rw [hh] at hp
    exact Does.skip ⟨by rw [e1, if_pos hp, hv], i1, o2⟩
  · intro hp
    rw [hh] at hp
    refine Does.acts (actsOk_mem h.cx trivial) ?_
    simp only [runPA_cons, runPA_nil, aMem_run]
    refine ⟨?_, h.hI _ _ i1, Only.set o2 (by simp) _⟩
    rw [set_eq, hp, e1]
    simp only [arith, Bool.false_eq_true, if_false]
    have := toNat_pow2 hi
    have hl := (s (x + 348)).isLt
    split
    · rename_i hlt
      rw [BitVec.lt_def] at hlt
      omega
    · rw [BitVec.toNat_sub, hv, this]; omega

/-- What is left to find after the round for `2 ^ i`. -/
structure MaxInv (p : Nat → Bool) (lo hi i v : Nat) : Prop where
  ge : lo ≤ v
  le : v ≤ hi
  ok : v = lo ∨ p v = true
  no : ∀ u, v + 2 ^ i ≤ u → u ≤ hi → p u = false
  lt : v + 2 ^ i ≤ 2 ^ 32

/-- One probe. -/
theorem MaxInv.step {p : Nat → Bool} {lo hi i v : Nat} (h : MaxInv p lo hi (i + 1) v) (hp : ∀ u w, lo ≤ u → u ≤ w → w ≤ hi → p w = true → p u = true) :
    MaxInv p lo hi i (if (decide (v + 2 ^ i ≤ hi) && p (v + 2 ^ i)) then v + 2 ^ i else v) := by
  obtain ⟨h1, h2, h3, h4, h5⟩ := h
  rw [Nat.pow_succ] at h4 h5
  by_cases hq : v + 2 ^ i ≤ hi ∧ p (v + 2 ^ i) = true
  · rw [if_pos (by simp [hq.1, hq.2])]
    exact ⟨by omega, hq.1, Or.inr hq.2, fun u hu hl => h4 u (by omega) hl, by omega⟩
  · rw [if_neg (by simpa using hq)]
    refine ⟨h1, h2, h3, ?_, by have := Nat.two_pow_pos i; omega⟩
    intro u hu hl
    by_cases hc : p u = true
    · exact absurd ⟨by omega, hp _ _ (by omega) hu hl hc⟩ hq
    · simpa using hc

theorem roundsMax_does (h : BinOk L I x scr) {t : Nat → Test} {p : Nat → Bool} {lo hi : Nat} (hh : hi < 2 ^ 32)
    (hp : ∀ u w, lo ≤ u → u ≤ w → w ≤ hi → p w = true → p u = true) :
    ∀ i, i ≤ 32 → (∀ j < i, (t j).Is L I x (fun v => decide (v ≤ hi) && p v) scr) → ∀ s, I s → MaxInv p lo hi i (s (x + 348)).toNat →
      Does L (roundsMax x t i) s fun s' => MaxInv p lo hi 0 (s' (x + 348)).toNat ∧ I s' ∧ Only ((x + 348) :: scr) s s'
  | 0, _, _, s, hI, hv => Does.skip ⟨hv, hI, Only.refl _ _⟩
  | i + 1, hi', ht, s, hI, hv => by
    have h5 := hv.lt
    rw [Nat.pow_succ] at h5
    have hpos := Nat.two_pow_pos i
    refine Does.seq (Does.asg (by simp [h.cx]) (by simp) (Does.seq ?_))
    simp only [runAsg_cons, runAsg_nil, Src.valM, arith]
    have e : ((s.set (x + 348) (s (x + 348) + pow2 i)) (x + 348)).toNat = (s (x + 348)).toNat + 2 ^ i := by
      rw [set_eq, BitVec.toNat_add, toNat_pow2 (by omega)]; omega
    refine (backMax_does h (ht i (by omega)) (by omega) (h.hI _ _ hI) e).mono ?_
    rintro s1 ⟨e1, i1, o1⟩
    refine (roundsMax_does h hh hp i (by omega) (fun j hj => ht j (by omega)) s1 i1 (e1 ▸ hv.step hp)).mono ?_
    rintro s2 ⟨e2, i2, o2⟩
    exact ⟨e2, i2, ((Only.set (Only.refl _ _) (by simp) _).trans o1).trans o2⟩

/-- `v` is the last value of the range that satisfies `p`, or its first value if none does. -/
def IsLast (p : Nat → Bool) (lo hi v : Nat) : Prop := lo ≤ v ∧ v ≤ hi ∧ (v = lo ∨ p v = true) ∧ ∀ u, v < u → u ≤ hi → p u = false

/-- `v` is the first value of the range that satisfies `p`, or its last value if none does. -/
def IsFirst (p : Nat → Bool) (lo hi v : Nat) : Prop := lo ≤ v ∧ v ≤ hi ∧ (v = hi ∨ p v = true) ∧ ∀ u, lo ≤ u → u < v → p u = false

/-- **C46 (the last value that satisfies a condition).** Let `p` be true up to some value of the range and false above.  If the first probe stays in the range (or
fails) and no probe exceeds 32 bits, then `EUDBinaryMax` gives the last value of the range that satisfies `p`. -/
theorem C46_max (h : BinOk L I x scr) {init : Stmt} {t0 : Test} {t : Nat → Test} {p : Nat → Bool} {lo hi k : Nat} (hl : lo ≤ hi) (hh : hi < 2 ^ 32)
    (hp : ∀ u w, lo ≤ u → u ≤ w → w ≤ hi → p w = true → p u = true) (hk : k < 32) (h1 : lo + 2 ^ k ≤ hi ∨ p (lo + 2 ^ k) = false)
    (h2 : hi < lo + 2 ^ (k + 1)) (h3 : lo + 2 ^ (k + 1) ≤ 2 ^ 32) (s : Mem) (hI : I s)
    (hinit : Does L init s fun s' => (s' (x + 348)).toNat = lo + 2 ^ k ∧ I s' ∧ Only ((x + 348) :: scr) s s')
    (ht0 : t0.Is L I x p scr) (ht : ∀ i < k, (t i).Is L I x (fun v => decide (v ≤ hi) && p v) scr) :
    Does L (binMax x k init t0 t) s fun s' => IsLast p lo hi (s' (x + 348)).toNat ∧ I s' ∧ Only ((x + 348) :: scr) s s' := by
  refine Does.seq (hinit.mono ?_)
  rintro s1 ⟨e1, i1, o1⟩
  refine Does.seq ((backMax_does h ht0 hk i1 e1).mono ?_)
  rintro s2 ⟨e2, i2, o2⟩
  have h0 : MaxInv p lo hi (k + 1) lo := ⟨Nat.le_refl _, hl, Or.inl rfl, fun u a b => by omega, h3⟩
  have e3 : (if p (lo + 2 ^ k) then lo + 2 ^ k else lo) = if (decide (lo + 2 ^ k ≤ hi) && p (lo + 2 ^ k)) then lo + 2 ^ k else lo := by
    rcases h1 with h1 | h1 <;> simp [h1]
  refine (roundsMax_does h hh hp k (by omega) ht s2 i2 (by rw [e2, e3]; exact h0.step hp)).mono ?_
  rintro s3 ⟨e4, i3, o3⟩
  exact ⟨⟨e4.ge, e4.le, e4.ok, fun u hu hl => e4.no u (by omega) hl⟩, i3, (o1.trans o2).trans o3⟩

/-! ### The first value -/

theorem backMin_does (h : BinOk L I x scr) {t : Test} {p : Nat → Bool} (ht : t.Is L I x p scr) {i : Nat} (hi : i < 32) {s : Mem} (hI : I s) {v : Nat}
    (hb : v < 2 ^ 32) (hv : (s (x + 348)).toNat + 2 ^ i = v) :
    Does L (backMin x i t) s fun s' => (s' (x + 348)).toNat = (if p (v - 2 ^ i) then v - 2 ^ i else v) ∧ I s' ∧ Only ((x + 348) :: scr) s s' := by
  refine Does.ite ((ht s hI).mono ?_)
  rintro s1 ⟨hc, hh, i1, o1⟩
  have ev : (s (x + 348)).toNat = v - 2 ^ i := by omega
  rw [ev] at hh
  have o2 : Only ((x + 348) :: scr) s s1 := o1.mono (by simp; intro z hz; simp [hz])
  have e1 : s1 (x + 348) = s (x + 348) := o1 _ h.xs
  refine ⟨hc, ?_, ?_⟩
  · intro hp
    rw [hh] at hp
    exact Does.skip ⟨by rw [e1, if_pos hp, ev], i1, o2⟩
  · intro hp
    rw [hh] at hp
    refine Does.asg (by simp [h.cx]) (by simp) ?_
    simp only [runAsg_cons, runAsg_nil, Src.valM, arith]
    refine ⟨?_, h.hI _ _ i1, Only.set o2 (by simp) _⟩
    rw [set_eq, hp, e1, BitVec.toNat_add, toNat_pow2 hi]
    simp only [Bool.false_eq_true, if_false]
    omega

/-- What is left to find after the round for `2 ^ i`. -/
structure MinInv (p : Nat → Bool) (lo hi i v : Nat) : Prop where
  ge : lo ≤ v
  le : v ≤ hi
  ok : v = hi ∨ p v = true
  no : ∀ u, lo ≤ u → u + 2 ^ i ≤ v → p u = false

/-- One probe. -/
theorem MinInv.step {p : Nat → Bool} {lo hi i v : Nat} (h : MinInv p lo hi (i + 1) v) (hp : ∀ u w, lo ≤ u → u ≤ w → w ≤ hi → p u = true → p w = true) :
    MinInv p lo hi i (if 2 ^ i ≤ v then (if (decide (lo ≤ v - 2 ^ i) && p (v - 2 ^ i)) then v - 2 ^ i else v) else v) := by
  obtain ⟨h1, h2, h3, h4⟩ := h
  have hpos := Nat.two_pow_pos i
  rw [Nat.pow_succ] at h4
  by_cases hq : 2 ^ i ≤ v ∧ lo ≤ v - 2 ^ i ∧ p (v - 2 ^ i) = true
  · rw [if_pos hq.1, if_pos (by simp [hq.2.1, hq.2.2])]
    exact ⟨hq.2.1, by omega, Or.inr hq.2.2, fun u hu hl => h4 u hu (by omega)⟩
  · have e : (if 2 ^ i ≤ v then (if (decide (lo ≤ v - 2 ^ i) && p (v - 2 ^ i)) then v - 2 ^ i else v) else v) = v := by
      split
      · rename_i hle
        rw [if_neg]
        intro hc
        simp only [Bool.and_eq_true, decide_eq_true_eq] at hc
        exact hq ⟨hle, hc.1, hc.2⟩
      · rfl
    rw [e]
    refine ⟨h1, h2, h3, ?_⟩
    intro u hu hl
    by_cases hc : p u = true
    · exact absurd ⟨by omega, by omega, hp u _ hu (by omega) (by omega) hc⟩ hq
    · simpa using hc

theorem roundsMin_does (h : BinOk L I x scr) {t : Nat → Test} {p : Nat → Bool} {lo hi : Nat} (hh : hi < 2 ^ 32)
    (hp : ∀ u w, lo ≤ u → u ≤ w → w ≤ hi → p u = true → p w = true) :
    ∀ i, i ≤ 32 → (∀ j < i, (t j).Is L I x (fun v => decide (lo ≤ v) && p v) scr) → ∀ s, I s → MinInv p lo hi i (s (x + 348)).toNat →
      Does L (roundsMin x t i) s fun s' => MinInv p lo hi 0 (s' (x + 348)).toNat ∧ I s' ∧ Only ((x + 348) :: scr) s s'
  | 0, _, _, s, hI, hv => Does.skip ⟨hv, hI, Only.refl _ _⟩
  | i + 1, hi', ht, s, hI, hv => by
    have hle := hv.le
    have hs := hv.step hp
    have e2i := toNat_pow2 (show i < 32 by omega)
    have rest : ∀ s1, I s1 → MinInv p lo hi i (s1 (x + 348)).toNat → Only ((x + 348) :: scr) s s1 →
        Does L (roundsMin x t i) s1 fun s' => MinInv p lo hi 0 (s' (x + 348)).toNat ∧ I s' ∧ Only ((x + 348) :: scr) s s' := fun s1 i1 e1 o1 =>
      (roundsMin_does h hh hp i (by omega) (fun j hj => ht j (by omega)) s1 i1 e1).mono fun s2 h2 => ⟨h2.1, h2.2.1, o1.trans h2.2.2⟩
    refine Does.seq (Does.ite0 (by simp [cMem_ok h.cx]) ?_ ?_)
    · intro hc
      simp only [holdsAll_cons, holdsAll_nil, Bool.and_true, cMem_holds, compare, decide_eq_true_eq] at hc
      replace hc : 2 ^ i ≤ (s (x + 348)).toNat := e2i ▸ hc
      refine Does.seq (Does.acts (actsOk_mem h.cx trivial) ?_)
      simp only [runPA_cons, runPA_nil, aMem_run]
      have e : ((s.set (x + 348) (arith .sub (s (x + 348)) (pow2 i))) (x + 348)).toNat + 2 ^ i = (s (x + 348)).toNat := by
        rw [set_eq]
        simp only [arith]
        have hl := (s (x + 348)).isLt
        split
        · rename_i hlt
          rw [BitVec.lt_def] at hlt
          omega
        · rw [BitVec.toNat_sub, e2i]; omega
      refine (backMin_does h (ht i (by omega)) (by omega) (h.hI _ _ hI) (BitVec.isLt _) e).mono ?_
      rintro s1 ⟨e1, i1, o1⟩
      rw [if_pos hc] at hs
      exact rest s1 i1 (e1 ▸ hs) ((Only.set (Only.refl _ _) (by simp) _).trans o1)
    · intro hc
      simp only [holdsAll_cons, holdsAll_nil, Bool.and_true, cMem_holds, compare, decide_eq_false_iff_not] at hc
      replace hc : ¬ 2 ^ i ≤ (s (x + 348)).toNat := e2i ▸ hc
      rw [if_neg hc] at hs
      exact Does.skip (rest s hI hs (Only.refl _ _))

/-- **C46 (the first value that satisfies a condition).** Let `p` be false below some value of the range and true from there.  If the first probe stays in the range
(or is positive and fails) then `EUDBinaryMin` gives the first value of the range that satisfies `p`. -/
theorem C46_min (h : BinOk L I x scr) {init : Stmt} {t0 : Test} {t : Nat → Test} {p : Nat → Bool} {lo hi k : Nat} (hl : lo ≤ hi) (hh : hi < 2 ^ 32)
    (hp : ∀ u w, lo ≤ u → u ≤ w → w ≤ hi → p u = true → p w = true) (hk : k < 32) (h0 : 2 ^ k ≤ hi) (h1 : lo ≤ hi - 2 ^ k ∨ p (hi - 2 ^ k) = false)
    (h2 : hi < lo + 2 ^ (k + 1)) (s : Mem) (hI : I s)
    (hinit : Does L init s fun s' => (s' (x + 348)).toNat = hi - 2 ^ k ∧ I s' ∧ Only ((x + 348) :: scr) s s')
    (ht0 : t0.Is L I x p scr) (ht : ∀ i < k, (t i).Is L I x (fun v => decide (lo ≤ v) && p v) scr) :
    Does L (binMin x k init t0 t) s fun s' => IsFirst p lo hi (s' (x + 348)).toNat ∧ I s' ∧ Only ((x + 348) :: scr) s s' := by
  refine Does.seq (hinit.mono ?_)
  rintro s1 ⟨e1, i1, o1⟩
  refine Does.seq ((backMin_does h ht0 hk i1 hh (by omega)).mono ?_)
  rintro s2 ⟨e2, i2, o2⟩
  have hz : MinInv p lo hi (k + 1) hi := ⟨hl, Nat.le_refl _, Or.inl rfl, fun u a b => by omega⟩
  have e3 : (if p (hi - 2 ^ k) then hi - 2 ^ k else hi) =
      if 2 ^ k ≤ hi then (if (decide (lo ≤ hi - 2 ^ k) && p (hi - 2 ^ k)) then hi - 2 ^ k else hi) else hi := by
    rw [if_pos h0]
    rcases h1 with h1 | h1 <;> simp [h1]
  refine (roundsMin_does h hh hp k (by omega) ht s2 i2 (by rw [e2, e3]; exact hz.step hp)).mono ?_
  rintro s3 ⟨e4, i3, o3⟩
  exact ⟨⟨e4.ge, e4.le, e4.ok, fun u hu hl => e4.no u hu (by omega)⟩, i3, (o1.trans o2).trans o3⟩

/-! ### Two integers as bounds -/

/-- binsearch.py:37-52 for integers: `cond i` is `cond(x)` in the round for `2 ^ i`. -/
def binMaxC (x lo hi : Nat) (cond : Nat → Test) : Stmt :=
  binMax x (firstExp lo hi) (.asg [⟨x + 348, .set, .const (BitVec.ofNat 32 (lo + 2 ^ firstExp lo hi))⟩]) (cond (firstExp lo hi))
    fun i => ⟨(cond i).pre, cMem (x + 348) .atMost (BitVec.ofNat 32 hi) :: (cond i).cs⟩

/-- binsearch.py:79-96 for integers -/
def binMinC (x lo hi : Nat) (cond : Nat → Test) : Stmt :=
  binMin x (firstExp lo hi) (.asg [⟨x + 348, .set, .const (BitVec.ofInt 32 ((hi : Int) - 2 ^ firstExp lo hi))⟩]) (cond (firstExp lo hi))
    fun i => ⟨(cond i).pre, cMem (x + 348) .atLeast (BitVec.ofNat 32 lo) :: (cond i).cs⟩

/-- A bound beside a test. -/
theorem Test.Is.and (h : BinOk L I x scr) {t : Test} {p : Nat → Bool} (ht : t.Is L I x p scr) (c : Cmp) (k : W) :
    Test.Is L I x (fun v => compare c (BitVec.ofNat 32 v) k && p v) scr ⟨t.pre, cMem (x + 348) c k :: t.cs⟩ := by
  intro s hI
  refine (ht s hI).mono ?_
  rintro s1 ⟨hc, hh, i1, o1⟩
  refine ⟨?_, ?_, i1, o1⟩
  · intro d hd
    rcases List.mem_cons.1 hd with rfl | hd
    · exact cMem_ok h.cx _ _ _
    · exact hc d hd
  · simp only [holdsAll_cons, cMem_holds, hh, o1 _ h.xs, BitVec.ofNat_toNat, BitVec.setWidth_eq]

theorem Test.Is.congr {t : Test} {p q : Nat → Bool} (ht : t.Is L I x p scr) (h : ∀ v < 2 ^ 32, p v = q v) : t.Is L I x q scr := fun s hI =>
  (ht s hI).mono fun _ h1 => ⟨h1.1, h1.2.1.trans (h _ (BitVec.isLt _)), h1.2.2⟩

theorem firstExp_le {lo hi : Nat} (h : lo < hi) : lo + 2 ^ firstExp lo hi ≤ hi ∧ hi < lo + 2 ^ (firstExp lo hi + 1) := by
  rw [firstExp, if_neg (by omega)]
  have h1 := Nat.log2_self_le (show hi - lo ≠ 0 by omega)
  have h2 := Nat.lt_log2_self (n := hi - lo)
  omega

theorem firstExp_lt {lo hi : Nat} (hh : hi < 2 ^ 32) : firstExp lo hi < 32 := by
  rw [firstExp]
  split
  · decide
  · rename_i h
    have h1 := Nat.log2_self_le h
    by_cases h2 : (hi - lo).log2 < 32
    · exact h2
    · have := Nat.pow_le_pow_right (show 0 < 2 by decide) (Nat.le_of_not_lt h2)
      omega

/-- **C46 (`EUDBinaryMax` with two different integers).** It gives the last value of the range that satisfies the condition (the first value of the range if none
does), provided that rounding the size of the range up to a power of two does not leave 32 bits. -/
theorem C46_max_const (h : BinOk L I x scr) {cond : Nat → Test} {p : Nat → Bool} {lo hi : Nat} (hl : lo < hi) (hh : hi < 2 ^ 32)
    (hp : ∀ u w, lo ≤ u → u ≤ w → w ≤ hi → p w = true → p u = true) (h3 : lo + 2 ^ (firstExp lo hi + 1) ≤ 2 ^ 32)
    (ht : ∀ i ≤ firstExp lo hi, (cond i).Is L I x p scr) (s : Mem) (hI : I s) :
    Does L (binMaxC x lo hi cond) s fun s' => IsLast p lo hi (s' (x + 348)).toNat ∧ I s' ∧ Only ((x + 348) :: scr) s s' := by
  have hk := firstExp_lt (lo := lo) hh
  obtain ⟨h1, h2⟩ := firstExp_le hl
  refine C46_max h (Nat.le_of_lt hl) hh hp hk (Or.inl h1) h2 h3 s hI (Does.asg (by simp [h.cx]) (by simp) ?_) (ht _ (Nat.le_refl _)) ?_
  · simp only [runAsg_cons, runAsg_nil, Src.valM, arith]
    refine ⟨?_, h.hI _ _ hI, Only.set (Only.refl _ _) (by simp) _⟩
    rw [set_eq, BitVec.toNat_ofNat, Nat.mod_eq_of_lt (by omega)]
  · intro i hi'
    refine ((ht i (by omega)).and h .atMost (BitVec.ofNat 32 hi)).congr ?_
    intro v hv
    simp only [compare]
    congr 1
    rw [decide_eq_decide, BitVec.le_def, BitVec.toNat_ofNat, BitVec.toNat_ofNat, Nat.mod_eq_of_lt hv, Nat.mod_eq_of_lt hh]

/-- **C46 (`EUDBinaryMin` with two different integers).** It gives the first value of the range that satisfies the condition, or the last value of the range if
none does. -/
theorem C46_min_const (h : BinOk L I x scr) {cond : Nat → Test} {p : Nat → Bool} {lo hi : Nat} (hl : lo < hi) (hh : hi < 2 ^ 32)
    (hp : ∀ u w, lo ≤ u → u ≤ w → w ≤ hi → p u = true → p w = true)
    (ht : ∀ i ≤ firstExp lo hi, (cond i).Is L I x p scr) (s : Mem) (hI : I s) :
    Does L (binMinC x lo hi cond) s fun s' => IsFirst p lo hi (s' (x + 348)).toNat ∧ I s' ∧ Only ((x + 348) :: scr) s s' := by
  have hk := firstExp_lt (lo := lo) hh
  obtain ⟨h1, h2⟩ := firstExp_le hl
  refine C46_min h (Nat.le_of_lt hl) hh hp hk (by omega) (Or.inl (by omega)) h2 s hI (Does.asg (by simp [h.cx]) (by simp) ?_) (ht _ (Nat.le_refl _)) ?_
  · simp only [runAsg_cons, runAsg_nil, Src.valM, arith]
    refine ⟨?_, h.hI _ _ hI, Only.set (Only.refl _ _) (by simp) _⟩
    rw [set_eq, show ((hi : Int) - 2 ^ firstExp lo hi) = ((hi - 2 ^ firstExp lo hi : Nat) : Int) by
      rw [Int.ofNat_sub (by omega)]; simp, BitVec.ofInt_natCast, BitVec.toNat_ofNat, Nat.mod_eq_of_lt (by omega)]
  · intro i hi'
    refine ((ht i (by omega)).and h .atLeast (BitVec.ofNat 32 lo)).congr ?_
    intro v hv
    simp only [compare]
    congr 1
    rw [decide_eq_decide, BitVec.le_def, BitVec.toNat_ofNat, BitVec.toNat_ofNat, Nat.mod_eq_of_lt hv, Nat.mod_eq_of_lt (by omega)]

/-! ### Where they go wrong -/

theorem backMax_true {t : Test} {p : Nat → Bool} (ht : t.Is L I x p scr) (h : BinOk L I x scr) {i : Nat} {s : Mem} (hI : I s) (hp : p (s (x + 348)).toNat = true) :
    Does L (backMax x i t) s fun s' => s' (x + 348) = s (x + 348) ∧ I s' := by
  refine Does.ite ((ht s hI).mono ?_)
  rintro s1 ⟨hc, hh, i1, o1⟩
  rw [hp] at hh
  exact ⟨hc, fun _ => Does.skip ⟨o1 _ h.xs, i1⟩, fun hn => by rw [hh] at hn; cases hn⟩

theorem roundsMax_above (h : BinOk L I x scr) {t : Nat → Test} {p : Nat → Bool} {hi w : Nat} (hw : hi < w) (hw2 : w + 2 ^ 30 < 2 ^ 32) :
    ∀ i, i ≤ 31 → (∀ j < i, (t j).Is L I x (fun v => decide (v ≤ hi) && p v) scr) → ∀ s, I s → (s (x + 348)).toNat = w →
      Does L (roundsMax x t i) s fun s' => (s' (x + 348)).toNat = w
  | 0, _, _, s, hI, hv => Does.skip hv
  | i + 1, hi', ht, s, hI, hv => by
    have hle : 2 ^ i ≤ 2 ^ 30 := Nat.pow_le_pow_right (by omega) (by omega)
    have hpos := Nat.two_pow_pos i
    refine Does.seq (Does.asg (by simp [h.cx]) (by simp) (Does.seq ?_))
    simp only [runAsg_cons, runAsg_nil, Src.valM, arith]
    have e : ((s.set (x + 348) (s (x + 348) + pow2 i)) (x + 348)).toNat = w + 2 ^ i := by
      rw [set_eq, BitVec.toNat_add, toNat_pow2 (by omega)]; omega
    refine (backMax_does h (ht i (by omega)) (by omega) (h.hI _ _ hI) e).mono ?_
    rintro s1 ⟨e1, i1, -⟩
    refine roundsMax_above h hw hw2 i (by omega) (fun j hj => ht j (by omega)) s1 i1 ?_
    rw [e1, if_neg]
    simp only [Bool.and_eq_true, decide_eq_true_eq]
    omega

/-- **C46 (false for equal bounds).** `EUDBinaryMax(cond, v, v)` gives `v + 2 ** 31` if that satisfies the condition, as nothing is skipped and the first probe is
not compared with `maxv`. -/
theorem C46_counterexample_max_eq (h : BinOk L I x scr) {cond : Nat → Test} {p : Nat → Bool} {v : Nat} (hv : v < 2 ^ 30) (hp : p (v + 2 ^ 31) = true)
    (ht : ∀ i ≤ 31, (cond i).Is L I x p scr) (s : Mem) (hI : I s) :
    Does L (binMaxC x v v cond) s fun s' => (s' (x + 348)).toNat = v + 2 ^ 31 ∧ ¬ (s' (x + 348)).toNat ≤ v := by
  have hf : firstExp v v = 31 := by simp [firstExp]
  unfold binMaxC
  rw [hf]
  refine Does.seq (Does.asg (by simp [h.cx]) (by simp) (Does.seq ?_))
  simp only [runAsg_cons, runAsg_nil, Src.valM, arith]
  have e : ((s.set (x + 348) (BitVec.ofNat 32 (v + 2 ^ 31))) (x + 348)).toNat = v + 2 ^ 31 := by
    rw [set_eq, BitVec.toNat_ofNat, Nat.mod_eq_of_lt (by omega)]
  refine (backMax_true (ht 31 (Nat.le_refl _)) h (h.hI _ _ hI) (by rw [e]; exact hp)).mono ?_
  rintro s1 ⟨e1, i1⟩
  refine (roundsMax_above h (hi := v) (w := v + 2 ^ 31) (p := p) (by omega) (by omega) 31 (Nat.le_refl _) ?_ s1 i1 (by rw [e1, e])).mono (fun s' h' => ⟨h', by rw [h']; omega⟩)
  intro i hi'
  refine ((ht i (by omega)).and h .atMost (BitVec.ofNat 32 v)).congr ?_
  intro u hu
  simp only [compare]
  congr 1
  rw [decide_eq_decide, BitVec.le_def, BitVec.toNat_ofNat, BitVec.toNat_ofNat, Nat.mod_eq_of_lt hu, Nat.mod_eq_of_lt (by omega)]

/-- **C46 (false near the end of the range of values).** If the condition is always true then `EUDBinaryMax(cond, 0xFFFFFFFB, 0xFFFFFFFF)` gives 2: probes wrap. -/
theorem C46_counterexample_max_wrap (h : BinOk L I x scr) {cond : Nat → Test} {p : Nat → Bool} (hp : ∀ v, p v = true)
    (ht : ∀ i ≤ 2, (cond i).Is L I x p scr) (s : Mem) (hI : I s) :
    Does L (binMaxC x 0xFFFFFFFB 0xFFFFFFFF cond) s fun s' => s' (x + 348) = 2 := by
  have hf : firstExp 0xFFFFFFFB 0xFFFFFFFF = 2 := by decide +kernel
  have hand : ∀ i < 2, Test.Is L I x (fun _ => true) scr ⟨(cond i).pre, cMem (x + 348) .atMost 0xFFFFFFFF :: (cond i).cs⟩ := by
    intro i hi
    refine ((ht i (by omega)).and h .atMost 0xFFFFFFFF).congr ?_
    intro v hv
    simp only [hp, compare, Bool.and_true, decide_eq_true_eq, BitVec.le_def]
    have := (BitVec.ofNat 32 v).isLt
    have e : (0xFFFFFFFF : W).toNat = 2 ^ 32 - 1 := by decide
    omega
  unfold binMaxC
  rw [hf]
  refine Does.seq (Does.asg (by simp [h.cx]) (by simp) (Does.seq ?_))
  simp only [runAsg_cons, runAsg_nil, Src.valM, arith]
  refine (backMax_true (ht 2 (Nat.le_refl _)) h (h.hI _ _ hI) (hp _)).mono ?_
  rintro s1 ⟨e1, i1⟩
  refine Does.seq (Does.asg (by simp [h.cx]) (by simp) (Does.seq ?_))
  simp only [runAsg_cons, runAsg_nil, Src.valM, arith]
  refine (backMax_true (hand 1 (by omega)) h (h.hI _ _ i1) rfl).mono ?_
  rintro s2 ⟨e2, i2⟩
  refine Does.seq (Does.asg (by simp [h.cx]) (by simp) (Does.seq ?_))
  simp only [runAsg_cons, runAsg_nil, Src.valM, arith]
  refine (backMax_true (hand 0 (by omega)) h (h.hI _ _ i2) rfl).mono ?_
  rintro s3 ⟨e3, i3⟩
  refine Does.skip ?_
  rw [e3, set_eq, e2, set_eq, e1, set_eq]
  decide

theorem roundsMin_down (h : BinOk L I x scr) {t : Nat → Test} {p : Nat → Bool} {v : Nat} (hv : v + 2 ^ 31 < 2 ^ 32) (hp : ∀ u, v ≤ u → p u = true) :
    ∀ i, i ≤ 31 → (∀ j < i, (t j).Is L I x (fun u => decide (v ≤ u) && p u) scr) → ∀ s, I s → (s (x + 348)).toNat = v + 2 ^ i →
      Does L (roundsMin x t i) s fun s' => (s' (x + 348)).toNat = v + 1
  | 0, _, _, s, hI, hs => Does.skip hs
  | i + 1, hi', ht, s, hI, hs => by
    have hle : 2 ^ (i + 1) ≤ 2 ^ 31 := Nat.pow_le_pow_right (by omega) (by omega)
    rw [Nat.pow_succ] at hs hle
    have e2i := toNat_pow2 (show i < 32 by omega)
    refine Does.seq (Does.ite0 (by simp [cMem_ok h.cx]) ?_ ?_)
    · intro _
      refine Does.seq (Does.acts (actsOk_mem h.cx trivial) ?_)
      simp only [runPA_cons, runPA_nil, aMem_run]
      have e : ((s.set (x + 348) (arith .sub (s (x + 348)) (pow2 i))) (x + 348)).toNat + 2 ^ i = (s (x + 348)).toNat := by
        rw [set_eq]
        simp only [arith]
        split
        · rename_i hlt
          rw [BitVec.lt_def] at hlt
          omega
        · rw [BitVec.toNat_sub, e2i]; omega
      refine (backMin_does h (ht i (by omega)) (by omega) (h.hI _ _ hI) (BitVec.isLt _) e).mono ?_
      rintro s1 ⟨e1, i1, -⟩
      refine roundsMin_down h hv hp i (by omega) (fun j hj => ht j (by omega)) s1 i1 ?_
      have e3 : (s (x + 348)).toNat - 2 ^ i = v + 2 ^ i := by omega
      rw [e1, e3, if_pos]
      simp [hp (v + 2 ^ i) (by omega)]
    · intro hc
      simp only [holdsAll_cons, holdsAll_nil, Bool.and_true, cMem_holds, compare, decide_eq_false_iff_not] at hc
      exact absurd (show (pow2 i).toNat ≤ (s (x + 348)).toNat by rw [e2i]; omega) hc

/-- **C46 (false for equal bounds).** `EUDBinaryMin(cond, v, v)` gives `v + 1` if the condition holds from `v` on: `maxv - 2 ** 31` wraps around. -/
theorem C46_counterexample_min_eq (h : BinOk L I x scr) {cond : Nat → Test} {p : Nat → Bool} {v : Nat} (hv : v < 2 ^ 31) (hp : ∀ u, v ≤ u → p u = true)
    (ht : ∀ i ≤ 31, (cond i).Is L I x p scr) (s : Mem) (hI : I s) :
    Does L (binMinC x v v cond) s fun s' => (s' (x + 348)).toNat = v + 1 := by
  have hf : firstExp v v = 31 := by simp [firstExp]
  unfold binMinC
  rw [hf]
  refine Does.seq (Does.asg (by simp [h.cx]) (by simp) (Does.seq ?_))
  simp only [runAsg_cons, runAsg_nil, Src.valM, arith]
  have e : ((s.set (x + 348) (BitVec.ofInt 32 ((v : Int) - 2 ^ 31))) (x + 348)).toNat = v + 2 ^ 31 := by
    rw [set_eq, BitVec.toNat_ofInt]; omega
  have hb : Does L (backMin x 31 (cond 31)) (s.set (x + 348) (BitVec.ofInt 32 ((v : Int) - 2 ^ 31))) fun s' => (s' (x + 348)).toNat = v + 2 ^ 31 ∧ I s' := by
    refine Does.ite ((ht 31 (Nat.le_refl _) _ (h.hI _ _ hI)).mono ?_)
    rintro s1 ⟨hc, hh, i1, o1⟩
    rw [e, hp _ (by omega)] at hh
    exact ⟨hc, fun _ => Does.skip ⟨by rw [o1 _ h.xs, e], i1⟩, fun hn => by rw [hh] at hn; cases hn⟩
  refine hb.mono ?_
  rintro s1 ⟨e1, i1⟩
  refine roundsMin_down h (p := p) (by omega) hp 31 (Nat.le_refl _) ?_ s1 i1 e1
  intro i hi'
  refine ((ht i (by omega)).and h .atLeast (BitVec.ofNat 32 v)).congr ?_
  intro u hu
  simp only [compare]
  congr 1
  rw [decide_eq_decide, BitVec.le_def, BitVec.toNat_ofNat, BitVec.toNat_ofNat, Nat.mod_eq_of_lt hu, Nat.mod_eq_of_lt (by omega)]

end

/-! ## The square root -/

/-- sqrt.py:14 `x * x <= n`: the product goes to a fresh variable `y i` (muldiv.py `f_mul`), and the variable part of the condition at `c i` is filled in before
(trigger/tpatcher.py:34-77). -/
def sqrtTest (n : Nat) (y c : Nat → Nat) (mul : Nat → Stmt) (i : Nat) : Test :=
  ⟨.seq (mul i) (.asg [⟨c i + 8, .set, .var n⟩]), [cMemV (y i + 348) .atMost (c i)]⟩

/-- sqrt.py:11-15 `f_sqrt`, `r0` being the result variable -/
def eudSqrt (n x r0 : Nat) (y c : Nat → Nat) (mul : Nat → Stmt) : Stmt :=
  .seq (binMaxC x 0 0xFFFF (sqrtTest n y c mul)) (.seq (.asg [⟨r0 + 348, .set, .var x⟩]) .ret)

/-- The variables of the function and the sixteen multiplications. -/
structure SqrtOk (L : Layout) (I : Mem → Prop) (n x r0 : Nat) (y c : Nat → Nat) (mul : Nat → Stmt) (scr : List Nat) : Prop where
  vn : n ∈ L.P.vars
  vx : x ∈ L.P.vars
  cx : L.cell (x + 348)
  c0 : L.cell (r0 + 348)
  cy : ∀ i < 16, L.cell (y i + 348)
  cc : ∀ i < 16, L.cell (c i + 8)
  ne : ∀ i < 16, c i + 8 ≠ y i + 348
  mul : ∀ i < 16, CompI L I (mul i) (y i + 348) (fun s => s (x + 348) * s (x + 348)) scr
  ys : ∀ i < 16, y i + 348 ∈ scr ∧ c i + 8 ∈ scr
  xs : x + 348 ∉ scr
  ns : n + 348 ∉ scr
  nx : n ≠ x
  hI : ∀ s a w, a ∈ [x + 348, r0 + 348] ∨ (∃ i, i < 16 ∧ a = c i + 8) → I s → I (s.set a w)

theorem sqrtTest_is {I : Mem → Prop} {n x r0 : Nat} {y c : Nat → Nat} {mul : Nat → Stmt} {scr : List Nat} (h : SqrtOk L I n x r0 y c mul scr) (N : W)
    {i : Nat} (hi : i < 16) :
    (sqrtTest n y c mul i).Is L (fun s => I s ∧ s (n + 348) = N) x (fun v => decide (v * v % 2 ^ 32 ≤ N.toNat)) scr := by
  rintro s ⟨hI, hn⟩
  have hy := h.ys i hi
  refine Does.seq ((h.mul i hi s hI).mono ?_)
  rintro s1 ⟨e1, i1, o1⟩
  have en : s1 (n + 348) = N := by
    rw [o1 _ (by simp; exact ⟨fun e => h.ns (e ▸ hy.1), h.ns⟩), hn]
  refine Does.asg (by simp [h.cc i hi]) (by simp [h.vn]) ?_
  simp only [runAsg_cons, runAsg_nil, Src.valM, arith]
  refine ⟨by simp [sqrtTest, cMemV_ok (h.cy i hi)], ?_, ⟨h.hI _ _ _ (Or.inr ⟨i, hi, rfl⟩) i1, ?_⟩, ?_⟩
  · simp only [sqrtTest, holdsAll_cons, holdsAll_nil, Bool.and_true, cMemV_holds, set_eq, set_ne (h.ne i hi).symm, e1, en, compare]
    rw [decide_eq_decide, BitVec.le_def, BitVec.toNat_mul]
  · rw [set_ne (fun e : n + 348 = c i + 8 => h.ns (e ▸ hy.2)), en]
  · refine Only.set (o1.mono ?_) hy.2 _
    intro z hz
    rcases List.mem_cons.1 hz with rfl | hz
    · exact hy.1
    · exact hz

/-- **C45.** `f_sqrt(n)` is the largest `x` with `x * x ≤ n`, for every `n`. -/
theorem C45_sqrt {I : Mem → Prop} {n x r0 : Nat} {y c : Nat → Nat} {mul : Nat → Stmt} {scr : List Nat} (h : SqrtOk L I n x r0 y c mul scr) (s : Mem) (hI : I s) :
    Wp L (eudSqrt n x r0 y c mul) s fun o s' => o = .ret ∧ (s' (r0 + 348)).toNat * (s' (r0 + 348)).toNat ≤ (s (n + 348)).toNat ∧
      (s (n + 348)).toNat < ((s' (r0 + 348)).toNat + 1) * ((s' (r0 + 348)).toNat + 1) ∧ I s' ∧ Only ([r0 + 348, x + 348] ++ scr) s s' := by
  have hb : BinOk L (fun s' => I s' ∧ s' (n + 348) = s (n + 348)) x scr :=
    ⟨h.cx, h.xs, fun s1 w h1 => ⟨h.hI _ _ _ (Or.inl (by simp)) h1.1, by rw [set_ne (by have := h.nx; omega), h1.2]⟩⟩
  have sq : ∀ v, v ≤ 0xFFFF → v * v < 2 ^ 32 := fun v hv => Nat.lt_of_le_of_lt (Nat.mul_le_mul hv hv) (by decide)
  have hf : firstExp 0 0xFFFF = 15 := by decide +kernel
  refine Wp.seqN ((C46_max_const hb (lo := 0) (hi := 0xFFFF) (by decide) (by decide) ?_ (by rw [hf]; decide)
    (fun i hi => sqrtTest_is h (s (n + 348)) (by omega)) s ⟨hI, rfl⟩).mono ?_)
  · intro u w _ h1 h2 h3
    simp only [decide_eq_true_eq] at h3 ⊢
    rw [Nat.mod_eq_of_lt (sq _ h2)] at h3
    rw [Nat.mod_eq_of_lt (sq _ (by omega))]
    exact Nat.le_trans (Nat.mul_le_mul h1 h1) h3
  · rintro s1 ⟨⟨-, h1, h2, h3⟩, ⟨i1, -⟩, o1⟩
    refine Wp.seqN (Does.asg (by simp [h.c0]) (by simp [h.vx]) (Wp.ret ?_))
    simp only [runAsg_cons, runAsg_nil, Src.valM, arith, set_eq]
    refine ⟨trivial, ?_, ?_, h.hI _ _ _ (Or.inl (by simp)) i1, Only.set (o1.mono fun z hz => ?_) (by simp) _⟩
    · rcases h2 with h2 | h2
      · rw [h2]; simp
      · simp only [decide_eq_true_eq] at h2
        rwa [Nat.mod_eq_of_lt (sq _ h1)] at h2
    · by_cases hx : (s1 (x + 348)).toNat = 0xFFFF
      · rw [hx]; exact (s (n + 348)).isLt
      · have h4 := h3 ((s1 (x + 348)).toNat + 1) (by omega) (by omega)
        rw [decide_eq_false_iff_not, Nat.mod_eq_of_lt (sq _ (by omega))] at h4
        omega
    · rcases List.mem_cons.1 hz with rfl | hz <;> simp [*]

end Eud.SC
