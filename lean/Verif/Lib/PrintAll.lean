import Verif.Lib.Print
import Verif.Machine.InPlace
/-
Printing of literals and of any list of things: string/strcommon.py `ObfuscatedBytes`, string/eudprint.py `f_dbstr_print` (C58).
-/

namespace Eud.SC

/-! ## The bytes of literals -/

/-- `bytearray.find`: the first place where `bb` is in `d`. -/
def findSub (bb : List (BitVec 8)) : List (BitVec 8) → Option Nat
  | [] => if bb = [] then some 0 else none
  | x :: d => if bb.isPrefixOf (x :: d) then some 0 else (findSub bb d).map (· + 1)

/-- string/strcommon.py:180-192 `find`, `find_or_add`: the new data and where the last byte is. -/
def findOrAdd (key : BitVec 8) (d b : List (BitVec 8)) : List (BitVec 8) × Nat :=
  let bb := b.reverse.map (· ^^^ key)
  match findSub bb d with
  | some i => (d, i + (bb.length - 1))
  | none => (d ++ bb, (d ++ bb).length - 1)

/-- Many calls one after the other. -/
def findAll (key : BitVec 8) : List (BitVec 8) → List (List (BitVec 8)) → List (BitVec 8) × List Nat
  | d, [] => (d, [])
  | d, b :: bs => let r := findOrAdd key d b; let q := findAll key r.1 bs; (q.1, r.2 :: q.2)

/-- The bytes of `b` are, backwards from `p` on, in `d`. -/
def BackIn (key : BitVec 8) (d b : List (BitVec 8)) (p : Nat) : Prop := p < d.length ∧ b.length ≤ p + 1 ∧ ∀ k (h : k < b.length), d[p - k]? = some (b[k] ^^^ key)

theorem findSub_spec {bb : List (BitVec 8)} : ∀ {d : List (BitVec 8)} {i : Nat}, findSub bb d = some i → ∃ u v, d = u ++ bb ++ v ∧ u.length = i
  | [], i, h => by
    unfold findSub at h
    split at h
    · rename_i e; cases h; exact ⟨[], [], by simp [e], rfl⟩
    · cases h
  | x :: d, i, h => by
    unfold findSub at h
    split at h
    · rename_i e
      cases h
      obtain ⟨v, hv⟩ := List.isPrefixOf_iff_prefix.1 e
      exact ⟨[], v, by simp [hv], rfl⟩
    · rw [Option.map_eq_some_iff] at h
      obtain ⟨j, h1, h2⟩ := h
      obtain ⟨u, v, e1, e2⟩ := findSub_spec h1
      exact ⟨x :: u, v, by simp [e1], by simp [e2, h2]⟩

theorem backIn_mid {key : BitVec 8} {u v b : List (BitVec 8)} (hb : b ≠ []) : BackIn key (u ++ b.reverse.map (· ^^^ key) ++ v) b (u.length + (b.length - 1)) := by
  have hp := List.length_pos_iff.2 hb
  refine ⟨by simp only [List.length_append, List.length_map, List.length_reverse]; omega, by omega, fun k h => ?_⟩
  rw [List.getElem?_append_left (by simp only [List.length_append, List.length_map, List.length_reverse]; omega), List.getElem?_append_right (by omega), List.getElem?_map, List.getElem?_reverse (by omega),
    show b.length - 1 - (u.length + (b.length - 1) - k - u.length) = k by omega, List.getElem?_eq_getElem h]
  rfl

theorem BackIn.grow {key : BitVec 8} {d b : List (BitVec 8)} {p : Nat} (h : BackIn key d b p) (v : List (BitVec 8)) : BackIn key (d ++ v) b p := by
  refine ⟨by rw [List.length_append]; have := h.1; omega, h.2.1, fun k hk => ?_⟩
  rw [List.getElem?_append_left (by have := h.1; omega)]
  exact h.2.2 k hk

theorem findOrAdd_spec (key : BitVec 8) (d : List (BitVec 8)) {b : List (BitVec 8)} (hb : b ≠ []) : BackIn key (findOrAdd key d b).1 b (findOrAdd key d b).2 ∧ ∃ v, (findOrAdd key d b).1 = d ++ v := by
  unfold findOrAdd
  have hp := List.length_pos_iff.2 hb
  simp only
  split
  · rename_i i h
    obtain ⟨u, v, e1, e2⟩ := findSub_spec h
    refine ⟨?_, [], by simp⟩
    have := backIn_mid (key := key) (u := u) (v := v) hb
    rw [← e1, e2] at this
    simpa using this
  · refine ⟨?_, _, rfl⟩
    have := backIn_mid (key := key) (u := d) (v := []) hb
    rw [List.append_nil] at this
    simp only [List.length_append, List.length_map, List.length_reverse]
    rwa [show d.length + b.length - 1 = d.length + (b.length - 1) by omega]

theorem findAll_grow (key : BitVec 8) : ∀ (bs : List (List (BitVec 8))) (d : List (BitVec 8)), (∀ b ∈ bs, b ≠ []) → ∃ v, (findAll key d bs).1 = d ++ v
  | [], d, _ => ⟨[], by simp [findAll]⟩
  | b :: bs, d, h => by
    obtain ⟨v, hv⟩ := (findOrAdd_spec key d (h b (by simp))).2
    obtain ⟨v', hv'⟩ := findAll_grow key bs (findOrAdd key d b).1 fun c hc => h c (by simp [hc])
    exact ⟨v ++ v', by show (findAll key (findOrAdd key d b).1 bs).1 = _; rw [hv', hv, List.append_assoc]⟩

/-- **C58 (data).** Whatever literals are printed in the program, in whatever order, the data written in the end has each of them backwards, encoded with the key, from the place that was given to it. -/
theorem C58_data (key : BitVec 8) : ∀ (bs : List (List (BitVec 8))) (d : List (BitVec 8)), (∀ b ∈ bs, b ≠ []) → (findAll key d bs).2.length = bs.length ∧
    ∀ i (h : i < bs.length), ∃ p, (findAll key d bs).2[i]? = some p ∧ BackIn key (findAll key d bs).1 bs[i] p
  | [], _, _ => ⟨rfl, fun i h => absurd h (by simp)⟩
  | b :: bs, d, h => by
    obtain ⟨i1, i2⟩ := C58_data key bs (findOrAdd key d b).1 fun c hc => h c (by simp [hc])
    obtain ⟨v, hv⟩ := findAll_grow key bs (findOrAdd key d b).1 fun c hc => h c (by simp [hc])
    refine ⟨by simp only [findAll, List.length_cons, i1], fun i hi => ?_⟩
    cases i with
    | zero =>
      refine ⟨(findOrAdd key d b).2, rfl, ?_⟩
      simp only [findAll, List.getElem_cons_zero, hv]
      exact (findOrAdd_spec key d (h b (by simp))).1.grow v
    | succ i =>
      obtain ⟨p, h1, h2⟩ := i2 i (by simpa using hi)
      exact ⟨p, by simpa only [findAll, List.getElem?_cons_succ] using h1, by simpa only [findAll, List.getElem_cons_succ] using h2⟩

/-- string/strcommon.py:145-146: the numbers `random.randrange` may give. -/
def CountOk (n a : Nat) : Prop := 0x80000000 / n + 1 ≤ a ∧ a < if n = 1 then 0xFFFFFFFF else 0x80000000 / (n - 1)

/-- Adding such a number `n` times reaches 2 ^ 31, and no fewer times do; nothing wraps. -/
theorem countOk {n a : Nat} (hn : 0 < n) (h : CountOk n a) : (n - 1) * a < 2 ^ 31 ∧ 2 ^ 31 ≤ n * a ∧ n * a < 2 ^ 32 := by
  obtain ⟨h1, h2⟩ := h
  have k1 : 2 ^ 31 ≤ n * a := by
    have e := Nat.div_add_mod 0x80000000 n
    have m := Nat.mod_lt 0x80000000 hn
    have := Nat.mul_le_mul_left n h1
    rw [Nat.mul_add, Nat.mul_one] at this
    omega
  by_cases e : n = 1
  · subst e; simp at h2; omega
  · rw [if_neg e] at h2
    have k2 : (n - 1) * a < 2 ^ 31 := by
      have hm := Nat.mul_lt_mul_of_pos_left h2 (show 0 < n - 1 by omega)
      have := Nat.mul_div_le 0x80000000 (n - 1)
      omega
    refine ⟨k2, k1, ?_⟩
    have k3 : n * a = (n - 1) * a + a := by
      conv => lhs; rw [show n = n - 1 + 1 by omega, Nat.add_mul, Nat.one_mul]
    have k4 : a < 2 ^ 31 := Nat.lt_of_lt_of_le h2 (Nat.div_le_self _ _)
    omega

/-- Up to 32768 bytes there is such a number. -/
theorem C58_short {n : Nat} (h1 : 0 < n) (h2 : n ≤ 32768) : ∃ a, CountOk n a := by
  refine ⟨0x80000000 / n + 1, Nat.le_refl _, ?_⟩
  by_cases e : n = 1
  · subst e; decide
  · rw [if_neg e, Nat.lt_iff_add_one_le, Nat.le_div_iff_mul_le (by omega)]
    have k1 := Nat.div_mul_le_self 0x80000000 n
    generalize 0x80000000 / n = q at *
    obtain ⟨m, rfl⟩ : ∃ m, n = m + 1 := ⟨n - 1, by omega⟩
    rw [Nat.add_sub_cancel]
    rw [Nat.mul_add, Nat.mul_one] at k1
    rw [show q + 1 + 1 = q + 2 from rfl, Nat.add_mul]
    have : 2 * m ≤ q ∨ q < 2 * m := by omega
    rcases this with h | h
    · omega
    · have := Nat.mul_le_mul_right m (show q + 2 ≤ 2 * m + 1 by omega)
      rw [Nat.add_mul] at this
      have := Nat.mul_le_mul (show 2 * m + 1 ≤ 65535 by omega) (show m ≤ 32767 by omega)
      omega

/-- From 46342 bytes on there is none: `random.randrange` raises ValueError, and such a literal cannot be printed. -/
theorem C58_long {n : Nat} (h : 46342 ≤ n) : ¬ ∃ a, CountOk n a := by
  rintro ⟨a, h1, h2⟩
  rw [if_neg (by omega)] at h2
  have k : 0x80000000 / n + 1 < 0x80000000 / (n - 1) := by omega
  rw [Nat.lt_iff_add_one_le, Nat.le_div_iff_mul_le (by omega)] at k
  have e := Nat.div_add_mod 0x80000000 n
  have m := Nat.mod_lt 0x80000000 (show 0 < n by omega)
  have q1 : 0x80000000 / n ≤ 0x80000000 / 46342 := Nat.div_le_div_left h (by decide)
  generalize 0x80000000 / n = q at *
  obtain ⟨j, rfl⟩ : ∃ j, n = j + 1 := ⟨n - 1, by omega⟩
  rw [Nat.add_sub_cancel, Nat.mul_comm, Nat.mul_add, Nat.mul_add] at k
  rw [Nat.add_mul, Nat.one_mul] at e
  omega

/-! ## Printing a literal -/

/-- An action at `p` under a mask, whose value is looked up when it runs. -/
def aMemVX (a : Nat) (md : Mod) (k : W) (p : Nat) : PA := ⟨⟨some (.mem a), md, none, some k⟩, some p⟩

theorem aMemVX_run (s : Mem) (a : Nat) (md : Mod) (k : W) (p : Nat) : (aMemVX a md k p).run s = s.set a (modify md (s a) (s (p + 20)) k) := by
  simp only [PA.run, aMemVX, SAct.res, Option.getD_some, Option.getD_none, Act.apply, Dst.addr]

theorem actsOk_memVX {L : Layout} {a : Nat} (h : L.cell a) {s : Mem} {md : Mod} {k : W} {p : Nat} {ps : List PA} (hr : ActsOk L ps ((aMemVX a md k p).run s)) : ActsOk L (aMemVX a md k p :: ps) s :=
  ⟨(by intro hh; cases hh), h, hr⟩

theorem altAA : ∀ i, i < 31 → (0xAA : W).getLsbD (i + 1) = true → (0xAA : W).getLsbD i = false := by decide
theorem alt55 : ∀ i, i < 31 → (0x55 : W).getLsbD (i + 1) = true → (0x55 : W).getLsbD i = false := by decide

/-- The two masks together are the low byte. -/
theorem mask2 (k : BitVec 8) : (k &&& 0xAA) ^^^ (k &&& 0x55) = k := by
  apply BitVec.eq_of_getLsbD_eq
  intro i hi
  simp only [BitVec.getLsbD_xor, BitVec.getLsbD_and]
  have : ((0xAA : BitVec 8).getLsbD i = true ∧ (0x55 : BitVec 8).getLsbD i = false) ∨ ((0xAA : BitVec 8).getLsbD i = false ∧ (0x55 : BitVec 8).getLsbD i = true) := by revert i; decide
  rcases this with ⟨h1, h2⟩ | ⟨h1, h2⟩ <;> rw [h1, h2] <;> simp

/-- Adding under both masks is exclusive or with the low byte. -/
theorem add2 (x u v : W) (h : u.setWidth 8 = v.setWidth 8) : (modify .add (modify .add x u 0xAA) v 0x55).setWidth 8 = x.setWidth 8 ^^^ u.setWidth 8 := by
  rw [add_alt alt55, add_alt altAA, BitVec.setWidth_xor, BitVec.setWidth_xor, BitVec.setWidth_and, BitVec.setWidth_and, ← h, BitVec.xor_assoc]
  rw [show ((0xAA : W).setWidth 8) = 0xAA from rfl, show ((0x55 : W).setWidth 8) = 0x55 from rfl, mask2]

/-- string/strcommon.py:41-86: the variable `b`, the dword `cnt` of `count`, the triggers `dbstr_cont` and `dbstr_end`, where reading and writing go on, `br1` and `bw1`, and the keys. -/
structure LitPr where
  b : Nat
  cnt : Nat
  cont : Nat
  fe : Nat
  k1 : Nat
  k2 : Nat
  r : Nat
  w : Nat
  key1 : BitVec 8
  key2 : BitVec 8

namespace LitPr
variable (P : LitPr)

/-- strcommon.py:49-56 -/
def start : Stmt := .trig [] [aMemX (P.cont + 380) .add (P.key1.setWidth 32) 0xAA, aMemX (P.cont + 380) .add (P.key1.setWidth 32) 0x55, aMemX (P.cont + 412) .add (P.key2.setWidth 32) 0xAA, aMemX (P.cont + 412) .add (P.key2.setWidth 32) 0x55]

/-- strcommon.py:60-67: the trigger number `i`. -/
def backT (R : BRd) (i : Nat) : Stmt :=
  .trig [cMem (R.rd + 4) .exactly (BitVec.ofNat 32 (R.cs i))] (aMem (P.cont + 476) .set (BitVec.ofNat 32 (R.cs ((i + 2) % 4))) :: if i ≤ 1 then [] else [aMem (R.rd + 348) .add 1])

/-- strcommon.py:68-76: `dbstr_cont`. -/
def decT (R : BRd) : Stmt :=
  .trig [] [aMemV P.cnt .add (P.cont + 328), aMemVX (P.b + 348) .add 0xAA (P.cont + 360), aMemVX (P.b + 348) .add 0x55 (P.cont + 392), aMem (R.rd + 348) .add (-1), aMemV (R.rd + 4) .set (P.cont + 456)]

/-- strcommon.py:58-77: what is repeated. -/
def body (L : Layout) (G : BCfg) : Stmt :=
  .seq ((BOp.read P.r (P.b + 348)).stmt L G P.k1) (.seq (P.backT (G.R P.r) 0) (.seq (P.backT (G.R P.r) 1) (.seq (P.backT (G.R P.r) 2) (.seq (P.backT (G.R P.r) 3) (.seq (P.decT (G.R P.r)) ((BOp.writeV P.w (.var P.b)).stmt L G P.k2))))))

/-- strcommon.py:49-78 -/
def main (L : Layout) (G : BCfg) : Stmt := .seq P.start (.loop true .skip [cMem P.cnt .atLeast 0x80000000] (P.body L G) .skip)

/-- strcommon.py:79-86: the last trigger. -/
def fin : List PA := [aMem P.cnt .set 0, aMem (P.cont + 380) .set 0, aMem (P.cont + 412) .set 0]

/-- strcommon.py:142-159 `dbstr_print`: the last byte of the literal is at `p`. -/
def sub (L : Layout) (G : BCfg) (p : Nat) (a k1 k2 : W) (back : Nat) : Stmt :=
  .prim (SubRel L P.fe back [⟨P.cont + 348, .set, .const a⟩, ⟨P.cont + 380, .set, .const k1⟩, ⟨P.cont + 412, .set, .const k2⟩, ⟨(G.R P.r).rd + 4, .set, .const (BitVec.ofNat 32 ((G.R P.r).cs (p % 4)))⟩,
    ⟨(G.R P.r).rd + 348, .set, .const (epdOfQ (p / 4))⟩, ⟨P.fe + 4, .set, .const (BitVec.ofNat 32 back)⟩] (P.main L G) P.fin)

/-- All dwords of the subroutine. -/
def dws : List Nat := [P.fe + 4, P.b + 348, P.cnt, P.cont + 348, P.cont + 380, P.cont + 412, P.cont + 476]

structure Ok (L : Layout) (G : BCfg) : Prop where
  r : P.r < G.nr
  w : P.w < G.nw
  vb : VarU L G P.b
  cel : ∀ y ∈ P.dws, L.cell y
  lt : P.k1 < 2 ^ 32 ∧ P.k2 < 2 ^ 32
  int : ∀ y ∈ P.dws, ¬ G.Int y
  nd : P.dws.Nodup
  inj : ∀ i < 4, ∀ j < 4, (G.R P.r).cs i = (G.R P.r).cs j → i = j

variable {P} {L : Layout} {G : BCfg} {br : Nat → Nat} {cp : W} {rp wp : Nat → Nat} {s s' : Mem}

theorem ofNat_inj {a b : Nat} (ha : a < 2 ^ 32) (hb : b < 2 ^ 32) (h : BitVec.ofNat 32 a = BitVec.ofNat 32 b) : a = b := by
  have := congrArg BitVec.toNat h
  rwa [BitVec.toNat_ofNat, BitVec.toNat_ofNat, Nat.mod_eq_of_lt ha, Nat.mod_eq_of_lt hb] at this

/-- What the trigger whose condition holds does. -/
def turn (P : LitPr) (R : BRd) (j : Nat) (s : Mem) : Mem :=
  if j ≤ 1 then s.set (P.cont + 476) (BitVec.ofNat 32 (R.cs ((j + 2) % 4))) else (s.set (P.cont + 476) (BitVec.ofNat 32 (R.cs ((j + 2) % 4)))).set (R.rd + 348) ((s.set (P.cont + 476) (BitVec.ofNat 32 (R.cs ((j + 2) % 4)))) (R.rd + 348) + 1)

/-- One of the four triggers. -/
theorem backT_does (hG : G.Ok L br) (hP : P.Ok L G) {i j : Nat} (hi : i < 4) (hj : j < 4) {s : Mem} (h : s ((G.R P.r).rd + 4) = BitVec.ofNat 32 ((G.R P.r).cs j)) {Q : Mem → Prop}
    (hq : Q (if i = j then (P.turn (G.R P.r) j s) else s)) :
    Does L (P.backT (G.R P.r) i) s Q := by
  have rk := hG.rd P.r hP.r
  refine Does.trig ?_ (fun hc => ?_) fun hc => ?_
  · simp only [List.mem_singleton, forall_eq]
    exact cMem_ok rk.c4 _ _ _
  · simp only [holdsAll_cons, holdsAll_nil, Bool.and_true, cMem_holds, compare, h, decide_eq_true_eq] at hc
    have e : i = j := hP.inj i hi j hj (ofNat_inj (rk.lt i hi) (rk.lt j hj) hc.symm)
    rw [if_pos e] at hq
    subst e
    unfold turn at hq
    by_cases hl : i ≤ 1
    · rw [if_pos hl]
      rw [if_pos hl] at hq
      exact ⟨actsOk_mem (hP.cel _ (by simp [dws])) trivial, by simpa only [runPA_cons, runPA_nil, aMem_run, arith] using hq⟩
    · rw [if_neg hl]
      rw [if_neg hl] at hq
      exact ⟨actsOk_mem (hP.cel _ (by simp [dws])) (actsOk_mem rk.c348 trivial), by simpa only [runPA_cons, runPA_nil, aMem_run, arith] using hq⟩
  · simp only [holdsAll_cons, holdsAll_nil, Bool.and_true, cMem_holds, compare, h, decide_eq_false_iff_not] at hc
    rwa [if_neg fun e => hc (by rw [e])] at hq

/-- The four triggers together. -/
theorem back4_does (hG : G.Ok L br) (hP : P.Ok L G) {j : Nat} (hj : j < 4) {s : Mem} (h : s ((G.R P.r).rd + 4) = BitVec.ofNat 32 ((G.R P.r).cs j)) {t : Stmt} {Q : Mem → Prop}
    (hq : Does L t (P.turn (G.R P.r) j s) Q) :
    Does L (.seq (P.backT (G.R P.r) 0) (.seq (P.backT (G.R P.r) 1) (.seq (P.backT (G.R P.r) 2) (.seq (P.backT (G.R P.r) 3) t)))) s Q := by
  have n4 : (G.R P.r).rd + 4 ≠ P.cont + 476 := fun e => hP.int (P.cont + 476) (by simp [dws]) ⟨.rd P.r, hP.r, by simp [BCfg.own, ← e]⟩
  have k : (P.turn (G.R P.r) j s) ((G.R P.r).rd + 4) =
      BitVec.ofNat 32 ((G.R P.r).cs j) := by
    unfold turn
    split
    · rw [set_ne n4, h]
    · rw [set_ne (by omega), set_ne n4, h]
  have hc : j = 0 ∨ j = 1 ∨ j = 2 ∨ j = 3 := by omega
  rcases hc with rfl | rfl | rfl | rfl
  · refine Does.seq (backT_does (i := 0) (j := 0) hG hP (by decide) hj h ?_); rw [if_pos rfl]
    refine Does.seq (backT_does (i := 1) (j := 0) hG hP (by decide) hj k ?_); rw [if_neg (by decide)]
    refine Does.seq (backT_does (i := 2) (j := 0) hG hP (by decide) hj k ?_); rw [if_neg (by decide)]
    refine Does.seq (backT_does (i := 3) (j := 0) hG hP (by decide) hj k ?_); rw [if_neg (by decide)]
    exact hq
  · refine Does.seq (backT_does (i := 0) (j := 1) hG hP (by decide) hj h ?_); rw [if_neg (by decide)]
    refine Does.seq (backT_does (i := 1) (j := 1) hG hP (by decide) hj h ?_); rw [if_pos rfl]
    refine Does.seq (backT_does (i := 2) (j := 1) hG hP (by decide) hj k ?_); rw [if_neg (by decide)]
    refine Does.seq (backT_does (i := 3) (j := 1) hG hP (by decide) hj k ?_); rw [if_neg (by decide)]
    exact hq
  · refine Does.seq (backT_does (i := 0) (j := 2) hG hP (by decide) hj h ?_); rw [if_neg (by decide)]
    refine Does.seq (backT_does (i := 1) (j := 2) hG hP (by decide) hj h ?_); rw [if_neg (by decide)]
    refine Does.seq (backT_does (i := 2) (j := 2) hG hP (by decide) hj h ?_); rw [if_pos rfl]
    refine Does.seq (backT_does (i := 3) (j := 2) hG hP (by decide) hj k ?_); rw [if_neg (by decide)]
    exact hq
  · refine Does.seq (backT_does (i := 0) (j := 3) hG hP (by decide) hj h ?_); rw [if_neg (by decide)]
    refine Does.seq (backT_does (i := 1) (j := 3) hG hP (by decide) hj h ?_); rw [if_neg (by decide)]
    refine Does.seq (backT_does (i := 2) (j := 3) hG hP (by decide) hj h ?_); rw [if_neg (by decide)]
    refine Does.seq (backT_does (i := 3) (j := 3) hG hP (by decide) hj h ?_); rw [if_pos rfl]
    exact hq

/-- What changes in each round. -/
def scr (P : LitPr) (y : Nat) : Prop := y ∈ [P.b + 348, P.cnt, P.cont + 476]

theorem epdAddr_pred (e : W) : epdAddr (e + -1) = (epdAddr e + (2 ^ 32 - 4)) % 2 ^ 32 := by
  unfold epdAddr
  rw [BitVec.toNat_add, show (-1 : W).toNat = 2 ^ 32 - 1 from rfl]
  omega

/-- What the trigger `dbstr_cont` does. -/
def dec (P : LitPr) (R : BRd) (s : Mem) : Mem :=
  ((((s.set P.cnt (s P.cnt + s (P.cont + 348))).set (P.b + 348) (modify .add (s (P.b + 348)) (s (P.cont + 380)) 0xAA)).set (P.b + 348) (modify .add (modify .add (s (P.b + 348)) (s (P.cont + 380)) 0xAA) (s (P.cont + 412)) 0x55)).set
    (R.rd + 348) (s (R.rd + 348) + -1)).set (R.rd + 4) (s (P.cont + 476))

theorem decT_does (hG : G.Ok L br) (hP : P.Ok L G) (ne348 : ∀ y ∈ P.dws, y ≠ (G.R P.r).rd + 348) {s : Mem} {Q : Mem → Prop} (hq : Q (P.dec (G.R P.r) s)) :
    Does L (P.decT (G.R P.r)) s Q := by
  have nd := hP.nd
  simp only [dws, List.nodup_cons, List.mem_cons, not_or, List.not_mem_nil, not_false_eq_true, List.nodup_nil, and_true, or_false] at nd
  simp only [dws, List.mem_cons, List.not_mem_nil, or_false, forall_eq_or_imp, forall_eq] at ne348
  obtain ⟨-, ⟨b1, b2, b3, b4, b5⟩, ⟨c1, c2, c3, c4⟩, -⟩ := nd
  obtain ⟨-, f1, f2, d1, d2, d3, d4⟩ := ne348
  have cb := cell_val hG.wf hP.vb.1
  have rk := hG.rd P.r hP.r
  refine Does.acts (actsOk_memV (hP.cel _ (by simp [dws])) (actsOk_memVX cb (actsOk_memVX cb (actsOk_mem rk.c348 (actsOk_memV rk.c4 trivial))))) ?_
  have e : runPA [aMemV P.cnt .add (P.cont + 328), aMemVX (P.b + 348) .add 0xAA (P.cont + 360), aMemVX (P.b + 348) .add 0x55 (P.cont + 392), aMem ((G.R P.r).rd + 348) .add (-1), aMemV ((G.R P.r).rd + 4) .set (P.cont + 456)] s =
      P.dec (G.R P.r) s := by
    rw [runPA_cons, aMemV_run, runPA_cons, aMemVX_run, Nat.add_assoc P.cont, Nat.add_assoc P.cont, show 328 + 20 = 348 from rfl, show 360 + 20 = 380 from rfl, arith, set_ne b1, set_ne (Ne.symm c2), runPA_cons, aMemVX_run, Nat.add_assoc P.cont,
      show 392 + 20 = 412 from rfl, set_eq, set_ne (Ne.symm b4), set_ne (Ne.symm c3), runPA_cons, aMem_run, arith, set_ne (Ne.symm f1), set_ne (Ne.symm f1), set_ne (Ne.symm f2), runPA_cons, aMemV_run, runPA_nil, arith, Nat.add_assoc P.cont, show 456 + 20 = 476 from rfl,
      set_ne d4, set_ne (Ne.symm b5), set_ne (Ne.symm b5), set_ne (Ne.symm c4)]
    rfl
  rw [e]; exact hq

theorem turn_case {p : Nat} (hp : 0 < p) (hq : p < 2 ^ 32) : (nextB p % 4 + 2) % 4 = (p - 1) % 4 := by unfold nextB; omega

theorem turn_lo {p : Nat} (hp : 0 < p) (hq : p < 2 ^ 32) (h : nextB p % 4 ≤ 1) : (nextB p / 4 * 4 + (2 ^ 32 - 4)) % 2 ^ 32 = (p - 1) / 4 * 4 := by
  by_cases e : p = 2 ^ 32 - 1
  · subst e; decide
  · have k : nextB p = p + 1 := Nat.mod_eq_of_lt (by omega)
    rw [k] at h ⊢; omega

theorem turn_hi {p : Nat} (hp : 0 < p) (hq : p < 2 ^ 32) (h : ¬ nextB p % 4 ≤ 1) : nextB p / 4 * 4 = (p - 1) / 4 * 4 := by
  by_cases e : p = 2 ^ 32 - 1
  · subst e; exact absurd (by decide) h
  · have k : nextB p = p + 1 := Nat.mod_eq_of_lt (by omega)
    rw [k] at h ⊢; omega

/-- Seeking by actions, while dwords of the user may change. -/
theorem reseek (hG : G.Ok L br) {r p : Nat} (hr : r < G.nr) (hp : p < 2 ^ 32) (h : BRep G cp ⟨rp, wp, s⟩ s) (ha : (G.R r).At s' p) (ho : ∀ y, G.Int y → y ≠ (G.R r).rd + 4 → y ≠ (G.R r).rd + 348 → s' y = s y) :
    BRep G cp ⟨upd rp r p, wp, s'⟩ s' := by
  have i4 : G.Int ((G.R r).rd + 4) := ⟨.rd r, hr, by simp [BCfg.own]⟩
  have i348 : G.Int ((G.R r).rd + 348) := ⟨.rd r, hr, by simp [BCfg.own]⟩
  have u := h.move (s' := fun y => if y = (G.R r).rd + 4 ∨ y = (G.R r).rd + 348 then s y else s' y) fun y hy => by
    split
    · rfl
    · rename_i hn
      rw [not_or] at hn
      exact ho y hy hn.1 hn.2
  have u2 := BHist.rseek_step hG u hr hp (l := [(G.R r).rd + 4, (G.R r).rd + 348]) (by
    intro y hy
    simp only [List.mem_cons, List.not_mem_nil, or_false] at hy
    exact .inl (by rcases hy with rfl | rfl <;> simp [BCfg.own])) ha (fun y hy => by
    simp only [List.mem_cons, List.not_mem_nil, or_false] at hy
    show s' y = if _ then _ else _
    rw [if_neg hy])
  exact u2.here

/-- One round: the byte at the reader is decoded and written; the reader goes back by one. -/
theorem round_does (hG : G.Ok L br) (hP : P.Ok L G) (h : BRep G cp ⟨rp, wp, s⟩ s) {x key : BitVec 8} (hx : byteAt s (rp P.r) = x ^^^ key) (hp : 0 < rp P.r) (hR : RdB L G P.dws (rp P.r))
    (h1 : (s (P.cont + 380)).setWidth 8 = key) (h2 : (s (P.cont + 412)).setWidth 8 = key) (hr : Room L G (· ∈ P.dws) (wp P.w) 1) :
    Does L (P.body L G) s fun s' => Wrote G cp P.w P.scr (upd rp P.r (rp P.r - 1)) wp s s' [x] ∧ s' P.cnt = s P.cnt + s (P.cont + 348) := by
  have hq := (h.wr _ hP.w).2.1
  have hrq := (h.rd _ hP.r).2
  simp only at hq hrq
  obtain ⟨r1, r2, -⟩ := hR
  have cb := cell_val hG.wf hP.vb.1
  have rk := hG.rd P.r hP.r
  have int : ∀ y ∈ P.dws, ¬ G.Int y := hP.int
  have i4 : G.Int ((G.R P.r).rd + 4) := ⟨.rd P.r, hP.r, by simp [BCfg.own]⟩
  have i348 : G.Int ((G.R P.r).rd + 348) := ⟨.rd P.r, hP.r, by simp [BCfg.own]⟩
  have ne4 : ∀ y ∈ P.dws, y ≠ (G.R P.r).rd + 4 := fun y hy e => int y hy (e ▸ i4)
  have ne348 : ∀ y ∈ P.dws, y ≠ (G.R P.r).rd + 348 := fun y hy e => int y hy (e ▸ i348)
  have mb : P.b + 348 ∈ P.dws := by simp [dws]
  have mc : P.cnt ∈ P.dws := by simp [dws]
  have m1 : P.cont + 348 ∈ P.dws := by simp [dws]
  have m2 : P.cont + 380 ∈ P.dws := by simp [dws]
  have m3 : P.cont + 412 ∈ P.dws := by simp [dws]
  have m4 : P.cont + 476 ∈ P.dws := by simp [dws]
  have nd := hP.nd
  simp only [dws, List.nodup_cons, List.mem_cons, not_or, List.not_mem_nil, not_false_eq_true, List.nodup_nil, and_true, or_false] at nd
  obtain ⟨-, ⟨b1, b2, b3, b4, b5⟩, ⟨c1, c2, c3, c4⟩, -⟩ := nd
  refine Does.seq ((C37_step hG h hP.lt.1 (.read P.r (P.b + 348)) ⟨hP.r, cb, hP.vb.2.2, hP.vb.2.1, r1, r2⟩).mono fun s1 g1 => ?_)
  have vis := g1.vis
  have g1' := g1.here
  simp only [BOp.spec] at g1' vis
  obtain ⟨⟨a1, a2⟩, -⟩ := g1'.rd P.r hP.r
  simp only [BHist.upd_self] at a1 a2
  have hb : s1 (P.b + 348) = (x ^^^ key).setWidth 32 := by rw [vis _ hP.vb.2.1, set_eq, hx]
  have v1 : ∀ y ∈ P.dws, y ≠ P.b + 348 → s1 y = s y := fun y hy hn => by rw [vis y (int y hy), set_ne hn]
  refine back4_does hG hP (Nat.mod_lt _ (by decide)) a1 ?_
  generalize ht : P.turn (G.R P.r) (nextB (rp P.r) % 4) s1 = s2
  have t1 : s2 (P.cont + 476) = BitVec.ofNat 32 ((G.R P.r).cs ((rp P.r - 1) % 4)) := by
    rw [← ht, ← turn_case hp hrq]
    unfold turn
    split
    · rw [set_eq]
    · rw [set_ne (ne348 _ m4), set_eq]
  have t2 : (epdAddr (s2 ((G.R P.r).rd + 348) + -1)) = (rp P.r - 1) / 4 * 4 := by
    rw [← ht]
    unfold turn
    split
    · rename_i hl
      rw [set_ne (Ne.symm (ne348 _ m4)), epdAddr_pred, a2, turn_lo hp hrq hl]
    · rename_i hl
      rw [set_eq, set_ne (Ne.symm (ne348 _ m4)), BitVec.add_assoc, show (1 : W) + -1 = 0#32 from rfl, BitVec.add_zero, a2, turn_hi hp hrq hl]
  have t3 : Only [P.cont + 476, (G.R P.r).rd + 348] s1 s2 := by
    rw [← ht]
    unfold turn
    split
    · exact (Only.refl _ _).set (by simp) _
    · exact ((Only.refl _ _).set (by simp) _).set (by simp) _
  have k2 : ∀ y ∈ P.dws, y ≠ P.cont + 476 → s2 y = s1 y := fun y hy hn => t3 y (by simp only [List.mem_cons, List.not_mem_nil, or_false, not_or]; exact ⟨hn, ne348 y hy⟩)
  refine Does.seq (decT_does hG hP ne348 ?_)
  generalize hd : P.dec (G.R P.r) s2 = s3
  have d1 : s3 P.cnt = s P.cnt + s (P.cont + 348) := by
    rw [← hd, dec, set_ne (ne4 _ mc), set_ne (ne348 _ mc), set_ne (Ne.symm b1), set_ne (Ne.symm b1), set_eq, k2 _ mc c4, k2 _ m1 (by omega), v1 _ mc (Ne.symm b1), v1 _ m1 (Ne.symm b2)]
  have d2 : (s3 (P.b + 348)).setWidth 8 = x := by
    rw [← hd, dec, set_ne (ne4 _ mb), set_ne (ne348 _ mb), set_eq, k2 _ mb b5, k2 _ m2 (by omega), k2 _ m3 (by omega), v1 _ m2 (Ne.symm b3), v1 _ m3 (Ne.symm b4), add2 _ _ _ (by rw [h1, h2]), hb, h1]
    rw [show ((x ^^^ key).setWidth 32).setWidth 8 = x ^^^ key from by
      apply BitVec.eq_of_toNat_eq; rw [BitVec.toNat_setWidth, BitVec.toNat_setWidth]; have := (x ^^^ key).isLt; omega]
    rw [BitVec.xor_assoc, BitVec.xor_self, BitVec.xor_zero]
  have d3 : (G.R P.r).At s3 (rp P.r - 1) := by
    constructor
    · rw [← hd, dec, set_eq, t1]
    · rw [← hd, dec, set_ne (by omega), set_eq, t2]
  have d4 : Only [P.cnt, P.b + 348, P.cont + 476, (G.R P.r).rd + 348, (G.R P.r).rd + 4] s1 s3 := by
    rw [← hd, dec]
    exact (((((t3.mono (by simp)).set (by simp) _).set (by simp) _).set (by simp) _).set (by simp) _).set (by simp) _
  have g3 : BRep G cp ⟨upd rp P.r (rp P.r - 1), wp, s3⟩ s3 := by
    have u := reseek hG hP.r (p := rp P.r - 1) (by omega) g1' d3 fun y hy e4 e348 => d4 y (by
      simp only [List.mem_cons, List.not_mem_nil, or_false, not_or]
      exact ⟨fun e => int _ mc (e ▸ hy), fun e => int _ mb (e ▸ hy), fun e => int _ m4 (e ▸ hy), e348, e4⟩)
    rwa [upd_upd] at u
  refine (wr_does (w := P.w) (S := (· ∈ P.dws)) hG hP.w g3 (x := .var P.b) hP.vb.src hP.lt.2 hr).mono fun s4 g4 => ?_
  rw [valM_var, d2] at g4
  refine ⟨⟨g4.1, fun y hy hn => ?_⟩, ?_⟩
  · rw [g4.2 y hy (fun h => h)]
    refine putBytes_congr ?_
    simp only [scr, List.mem_cons, List.not_mem_nil, or_false, not_or] at hn
    rw [d4 y (by simp only [List.mem_cons, List.not_mem_nil, or_false, not_or]; exact ⟨hn.2.1, hn.1, hn.2.2, fun e => hy (e ▸ i348), fun e => hy (e ▸ i4)⟩), vis y hy, set_ne hn.1]
  · rw [g4.keep (L := L) (n := 1) (S' := (· ∈ P.dws)) hq (by simp) hr (int _ mc) (fun h => h) mc, d1]

/-- The literal `l` is, encoded with `key`, backwards from address `p` on. -/
def RevAt (s : Mem) (p : Nat) (key : BitVec 8) (l : List (BitVec 8)) : Prop := l.length ≤ p ∧ ∀ k (h : k < l.length), byteAt s (p - k) = l[k] ^^^ key

/-- When the data is in memory from `base` on, the literals are there. -/
theorem RevAt.of_data {base : Nat} {key : BitVec 8} {d b : List (BitVec 8)} {p : Nat} (hb : 0 < base) (hd : ∀ i (h : i < d.length), byteAt s (base + i) = d[i]) (h : BackIn key d b p) : RevAt s (base + p) key b := by
  obtain ⟨h1, h2, h3⟩ := h
  refine ⟨by omega, fun k hk => ?_⟩
  have := h3 k hk
  rw [List.getElem?_eq_some_iff] at this
  obtain ⟨q1, q2⟩ := this
  rw [show base + p - k = base + (p - k) by omega, hd _ q1, q2]

/-- The loop writes the literal. -/
theorem loop_does (hG : G.Ok L br) (hP : P.Ok L G) (h : BRep G cp ⟨rp, wp, s⟩ s) {l : List (BitVec 8)} {key : BitVec 8} (hl : RevAt s (rp P.r) key l) (hn : 0 < l.length) (h1 : (s (P.cont + 380)).setWidth 8 = key)
    (h2 : (s (P.cont + 412)).setWidth 8 = key) (h0 : s P.cnt = 0) (ha : CountOk l.length (s (P.cont + 348)).toNat) (hR : ∀ k < l.length, RdB L G P.dws (rp P.r - k)) (hr : Room L G (· ∈ P.dws) (wp P.w) l.length)
    (ho : ∀ i j, i < j → j < l.length → posB (wp P.w) i ≠ rp P.r - j) :
    Does L (.loop true .skip [cMem P.cnt .atLeast 0x80000000] (P.body L G) .skip) s fun s' => Wrote G cp P.w P.scr (upd rp P.r (rp P.r - l.length)) wp s s' l := by
  have hq := (h.wr _ hP.w).2.1
  have hrq := (h.rd _ hP.r).2
  simp only at hq hrq
  obtain ⟨c1, c2, c3⟩ := countOk hn ha
  have hlen : l.length ≤ 2 ^ 32 := by
    have := Nat.mul_le_mul_left l.length (Nat.le_trans (Nat.le_add_left 1 _) ha.1)
    omega
  have nd := hP.nd
  simp only [dws, List.nodup_cons, List.mem_cons, not_or, List.not_mem_nil, not_false_eq_true, List.nodup_nil, and_true, or_false] at nd
  have ns : ∀ y, y = P.cont + 348 ∨ y = P.cont + 380 ∨ y = P.cont + 412 → y ∈ P.dws ∧ ¬ P.scr y := by
    intro y hy
    simp only [dws, scr, List.mem_cons, List.not_mem_nil, or_false]
    rcases hy with rfl | rfl | rfl <;> refine ⟨by simp, ?_⟩ <;> grind
  refine Does.loop (fun m t => ∃ u v, l = u ++ v ∧ v.length = m ∧ Wrote G cp P.w P.scr (upd rp P.r (rp P.r - u.length)) wp s t u ∧ (t P.cnt).toNat = u.length * (s (P.cont + 348)).toNat) ?_ (n := l.length) ⟨[], l, rfl, rfl, ?_, ?_⟩
  · rintro m t ⟨u, v, rfl, rfl, g1, g2⟩
    have gb := g1.1
    refine Does.skip ⟨by simp only [List.mem_singleton, forall_eq]; exact cMem_ok (hP.cel _ (by simp [dws])) _ _ _, ?_, ?_⟩
    · intro hc
      simp only [holdsAll_cons, holdsAll_nil, Bool.and_true, cMem_holds, compare, decide_eq_true_eq] at hc
      cases v with
      | nil => rw [List.append_nil]; exact g1
      | cons x v =>
        exfalso
        have hc' : 0x80000000 ≤ (t P.cnt).toNat := hc
        have := Nat.mul_le_mul_right (s (P.cont + 348)).toNat (show u.length ≤ (u ++ x :: v).length - 1 by simp)
        omega
    · intro hc
      simp only [holdsAll_cons, holdsAll_nil, Bool.and_true, cMem_holds, compare, Bool.not_true, decide_eq_false_iff_not] at hc
      have hc' : ¬ 0x80000000 ≤ (t P.cnt).toNat := hc
      cases v with
      | nil => rw [List.append_nil] at c2; omega
      | cons x v =>
        have hu : u.length < (u ++ x :: v).length := by simp
        have kp : ∀ y, y = P.cont + 348 ∨ y = P.cont + 380 ∨ y = P.cont + 412 → t y = s y := fun y hy =>
          g1.keep (L := L) hq (Nat.le_of_lt hu) (S' := (· ∈ P.dws)) hr (hP.int _ (ns y hy).1) (ns y hy).2 (ns y hy).1
        have q1 := hl.1
        have key1 := round_does (x := x) (key := key) hG hP gb ?_ ?_ ?_ (by rw [kp _ (.inr (.inl rfl)), h1]) (by rw [kp _ (.inr (.inr rfl)), h2]) ?_
        · refine key1.mono fun t' g3 => Does.skip ⟨v.length, by simp, u ++ [x], v, by simp, rfl, ?_, ?_⟩
          · have := Wrote.comp hq g1 g3.1
            rw [BHist.upd_self, upd_upd] at this
            rwa [List.length_append, List.length_singleton, ← Nat.sub_sub]
          · rw [g3.2, kp _ (.inl rfl), BitVec.toNat_add, g2, List.length_append, List.length_singleton, Nat.add_mul, Nat.one_mul, Nat.mod_eq_of_lt]
            have := Nat.mul_le_mul_right (s (P.cont + 348)).toNat (show u.length + 1 ≤ (u ++ x :: v).length by simp)
            rw [Nat.add_mul, Nat.one_mul] at this
            omega
        · rw [BHist.upd_self]
          obtain ⟨-, z1, z2⟩ := hR u.length hu
          have e1 : byteAt t (rp P.r - u.length) = byteAt (putBytes s (wp P.w) u) (rp P.r - u.length) := byteAt_congr (g1.2 _ z1 fun hs => z2 (by
            simp only [scr, dws, List.mem_cons, List.not_mem_nil, or_false] at hs ⊢; grind))
          rw [e1, (byteAt_putBytes hq (by omega)).2 _ fun i hi e => ho i u.length hi hu e.symm, hl.2 u.length hu]
          simp
        · rw [BHist.upd_self]; omega
        · rw [BHist.upd_self]; exact hR u.length hu
        · rw [BHist.upd_self]; exact hr.at (by omega)
  · rw [List.length_nil, Nat.sub_zero, upd_id]
    exact Wrote.refl h hq
  · rw [h0]; simp

/-- What printing a literal does. -/
theorem sub_spec (hG : G.Ok L br) (hP : P.Ok L G) (h : BRep G cp ⟨rp, wp, s⟩ s) (h0 : s P.cnt = 0) {l : List (BitVec 8)} {key : BitVec 8} {p back : Nat} {a k1 k2 : W} (hp : p < 2 ^ 32) (hl : RevAt s p key l) (hn : 0 < l.length)
    (h1 : k1.setWidth 8 = key ^^^ P.key1) (h2 : k2.setWidth 8 = key ^^^ P.key2) (ha : CountOk l.length a.toNat) (hR : ∀ k < l.length, RdB L G P.dws (p - k)) (hr : Room L G (· ∈ P.dws) (wp P.w) l.length)
    (ho : ∀ i j, i < j → j < l.length → posB (wp P.w) i ≠ p - j) :
    Does L (P.sub L G p a k1 k2 back) s fun s' => Wrote G cp P.w (· ∈ P.dws) (upd rp P.r (p - l.length)) wp s s' l ∧ s' P.cnt = 0 := by
  have hq := (h.wr _ hP.w).2.1
  simp only at hq
  have rk := hG.rd P.r hP.r
  have int : ∀ y ∈ P.dws, ¬ G.Int y := hP.int
  have i4 : G.Int ((G.R P.r).rd + 4) := ⟨.rd P.r, hP.r, by simp [BCfg.own]⟩
  have i348 : G.Int ((G.R P.r).rd + 348) := ⟨.rd P.r, hP.r, by simp [BCfg.own]⟩
  have ne4 : ∀ y ∈ P.dws, y ≠ (G.R P.r).rd + 4 := fun y hy e => int y hy (e ▸ i4)
  have ne348 : ∀ y ∈ P.dws, y ≠ (G.R P.r).rd + 348 := fun y hy e => int y hy (e ▸ i348)
  have mf : P.fe + 4 ∈ P.dws := by simp [dws]
  have mb : P.b + 348 ∈ P.dws := by simp [dws]
  have mc : P.cnt ∈ P.dws := by simp [dws]
  have m1 : P.cont + 348 ∈ P.dws := by simp [dws]
  have m2 : P.cont + 380 ∈ P.dws := by simp [dws]
  have m3 : P.cont + 412 ∈ P.dws := by simp [dws]
  have nd := hP.nd
  simp only [dws, List.nodup_cons, List.mem_cons, not_or, List.not_mem_nil, not_false_eq_true, List.nodup_nil, and_true, or_false] at nd
  obtain ⟨⟨f1, f2, f3, f4, f5, f6⟩, ⟨b1, b2, b3, b4, b5⟩, ⟨c1, c2, c3, c4⟩, -⟩ := nd
  refine sub_does ?_ (by simp) ?_
  · simp only [List.mem_cons, List.not_mem_nil, or_false, forall_eq_or_imp, forall_eq]
    exact ⟨hP.cel _ m1, hP.cel _ m2, hP.cel _ m3, rk.c4, rk.c348, hP.cel _ mf⟩
  simp only [runAsg_cons, runAsg_nil, arith, Src.valM_const]
  generalize hs1 : (((((s.set (P.cont + 348) a).set (P.cont + 380) k1).set (P.cont + 412) k2).set ((G.R P.r).rd + 4) (BitVec.ofNat 32 ((G.R P.r).cs (p % 4)))).set ((G.R P.r).rd + 348) (epdOfQ (p / 4))).set (P.fe + 4) (BitVec.ofNat 32 back) = s1
  have o1 : Only [P.cont + 348, P.cont + 380, P.cont + 412, (G.R P.r).rd + 4, (G.R P.r).rd + 348, P.fe + 4] s s1 := by
    rw [← hs1]; exact ((((((Only.refl _ s).set (by simp) _).set (by simp) _).set (by simp) _).set (by simp) _).set (by simp) _).set (by simp) _
  have e1 : s1 (P.cont + 348) = a := by rw [← hs1, set_ne (Ne.symm f3), set_ne (ne348 _ m1), set_ne (ne4 _ m1), set_ne (by omega), set_ne (by omega), set_eq]
  have e2 : s1 (P.cont + 380) = k1 := by rw [← hs1, set_ne (Ne.symm f4), set_ne (ne348 _ m2), set_ne (ne4 _ m2), set_ne (by omega), set_eq]
  have e3 : s1 (P.cont + 412) = k2 := by rw [← hs1, set_ne (Ne.symm f5), set_ne (ne348 _ m3), set_ne (ne4 _ m3), set_eq]
  have e4 : s1 (P.fe + 4) = BitVec.ofNat 32 back := by rw [← hs1, set_eq]
  have e5 : s1 P.cnt = 0 := by rw [← hs1, set_ne (Ne.symm f2), set_ne (ne348 _ mc), set_ne (ne4 _ mc), set_ne c3, set_ne c2, set_ne c1, h0]
  have at1 : (G.R P.r).At s1 p := by
    constructor
    · rw [← hs1, set_ne (Ne.symm (ne4 _ mf)), set_ne (by omega), set_eq]
    · rw [← hs1, set_ne (Ne.symm (ne348 _ mf)), set_eq, epdAddr_epdOfQ hp]
  refine Does.seq (Does.acts (actsOk_memX (hP.cel _ m2) (actsOk_memX (hP.cel _ m2) (actsOk_memX (hP.cel _ m3) (actsOk_memX (hP.cel _ m3) trivial)))) ?_)
  generalize hs2 : runPA _ s1 = s2
  rw [runPA_cons, aMemX_run, runPA_cons, aMemX_run, set_eq, runPA_cons, aMemX_run, set_ne (by omega), set_ne (by omega), runPA_cons, aMemX_run, runPA_nil, set_eq] at hs2
  have o2 : Only [P.cont + 380, P.cont + 412] s1 s2 := by
    rw [← hs2]; exact ((((Only.refl _ s1).set (by simp) _).set (by simp) _).set (by simp) _).set (by simp) _
  have x1 : (s2 (P.cont + 380)).setWidth 8 = key := by
    rw [← hs2, set_ne (by omega), set_ne (by omega), set_eq, add2 _ _ _ rfl, e2, h1, BitVec.setWidth_setWidth_of_le _ (by decide), BitVec.setWidth_eq, BitVec.xor_assoc, BitVec.xor_self, BitVec.xor_zero]
  have x2 : (s2 (P.cont + 412)).setWidth 8 = key := by
    rw [← hs2, set_eq, add2 _ _ _ rfl, e3, h2, BitVec.setWidth_setWidth_of_le _ (by decide), BitVec.setWidth_eq, BitVec.xor_assoc, BitVec.xor_self, BitVec.xor_zero]
  have o3 : ∀ y, y ∉ P.dws → y ≠ (G.R P.r).rd + 4 → y ≠ (G.R P.r).rd + 348 → s2 y = s y := by
    intro y hy q4 q348
    simp only [dws, List.mem_cons, List.not_mem_nil, or_false, not_or] at hy
    rw [o2 y (by simp only [List.mem_cons, List.not_mem_nil, or_false, not_or]; grind), o1 y (by simp only [List.mem_cons, List.not_mem_nil, or_false, not_or]; grind)]
  have k2' : ∀ y, y ≠ P.cont + 380 → y ≠ P.cont + 412 → s2 y = s1 y := fun y q1 q2 => o2 y (by simp only [List.mem_cons, List.not_mem_nil, or_false, not_or]; exact ⟨q1, q2⟩)
  have at2 : (G.R P.r).At s2 p := by
    obtain ⟨q1, q2⟩ := at1
    constructor
    · rw [k2' _ (Ne.symm (ne4 _ m2)) (Ne.symm (ne4 _ m3)), q1]
    · rw [k2' _ (Ne.symm (ne348 _ m2)) (Ne.symm (ne348 _ m3)), q2]
  have g2 := reseek hG hP.r hp h at2 fun y hy q4 q348 => o3 y (fun hm => int y hm hy) q4 q348
  have key := loop_does (l := l) (key := key) hG hP g2 ?_ hn x1 x2 ?_ ?_ ?_ hr ?_
  · refine key.mono fun s3 g3 => ?_
    rw [BHist.upd_self, upd_upd] at g3
    have sc : ∀ y, P.scr y → y ∈ P.dws := fun y hy => by simp only [scr, dws, List.mem_cons, List.not_mem_nil, or_false] at hy ⊢; grind
    have z4 : s3 (P.fe + 4) = BitVec.ofNat 32 back := by
      rw [g3.keep (L := L) hq (Nat.le_refl _) (S' := (· ∈ P.dws)) hr (int _ mf) (by simp only [scr, List.mem_cons, List.not_mem_nil, or_false, not_or]; exact ⟨f1, f2, f6⟩) mf, k2' _ f4 f5, e4]
    refine ⟨actsOk_mem (hP.cel _ mc) (actsOk_mem (hP.cel _ m2) (actsOk_mem (hP.cel _ m3) trivial)), ?_⟩
    simp only [fin, runPA_cons, runPA_nil, aMem_run, arith]
    refine ⟨?_, ?_, ?_⟩
    · rw [set_ne f5, set_ne f4, set_ne f2, z4]
    · have w : Wrote G cp P.w (· ∈ P.dws) (upd rp P.r (p - l.length)) wp s s3 l := by
        refine ⟨g3.1, fun y hy hn => ?_⟩
        rw [g3.2 y hy fun hs => hn (sc y hs)]
        exact putBytes_congr (o3 y hn (fun e => hy (e ▸ i4)) fun e => hy (e ▸ i348))
      refine w.loc hG (T := [P.cnt, P.cont + 380, P.cont + 412]) ((((Only.refl _ _).set (by simp) _).set (by simp) _).set (by simp) _) ?_ ?_
      · simp [dws]
      · simp only [List.mem_cons, List.not_mem_nil, or_false, forall_eq_or_imp, forall_eq]
        exact ⟨fun hI => absurd hI (int _ mc), fun hI => absurd hI (int _ m2), fun hI => absurd hI (int _ m3)⟩
    · rw [set_ne c3, set_ne c2, set_eq]
  · rw [BHist.upd_self]
    refine ⟨hl.1, fun k hk => ?_⟩
    obtain ⟨-, q1, q2⟩ := hR k hk
    rw [byteAt_congr (o3 _ q2 (fun e => q1 (e ▸ i4)) fun e => q1 (e ▸ i348)), hl.2 k hk]
  · rw [k2' _ c2 c3, e5]
  · rw [k2' _ (by omega) (by omega), e1]; exact ha
  · rw [BHist.upd_self]; exact hR
  · rw [BHist.upd_self]; exact ho

end LitPr

end Eud.SC
