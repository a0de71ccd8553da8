import Verif.Lib.ByteSeek
import Verif.Lib.ByteBlock
/-
C36: the length of a string (string/strfunc.py `f_strlen_epd`, `f_strlen`).
-/

namespace Eud.SC

/-! ## Specification -/

/-- The bytes from address `p` on are a string of length `n`: the first zero is `n` bytes further. -/
def StrLen (s : Mem) (p n : Nat) : Prop := (∀ k < n, byteAt s (posB p k) ≠ 0) ∧ byteAt s (posB p n) = 0

/-- There is at most one length. -/
theorem StrLen.unique {s : Mem} {p n m : Nat} (h : StrLen s p n) (h' : StrLen s p m) : n = m := by
  rcases Nat.lt_trichotomy n m with hl | hl | hl
  · exact absurd h.2 (h'.1 n hl)
  · exact hl
  · exact absurd h'.2 (h.1 m hl)

/-- A string has a length below `2 ^ 32`. -/
theorem StrLen.lt {s : Mem} {p n : Nat} (h : StrLen s p n) : n < 2 ^ 32 := by
  refine Decidable.by_contra fun hn => h.1 (n - 2 ^ 32) (by omega) ?_
  have : posB p (n - 2 ^ 32) = posB p n := by unfold posB; omega
  rw [this]; exact h.2

/-! ## The code -/

/-- strfunc.py:63-121 `_strlen_epd`: the variables `epd`, `subp`, `ret`, the result, the triggers `t 0 .. t 4` before the loop, the triggers `b 0 .. b 3` and `loopend`.
`np`, `fs`, `fe`, `fr`: the function (its return pointer, start, end and result).  `cn` is where `f_setcurpl2cpcache` goes on. -/
structure SLen where
  np : Nat
  fs : Nat
  fe : Nat
  fr : Nat
  ev : Nat
  sv : Nat
  ret : Nat
  t : Nat
  b : Nat → Nat
  le : Nat
  cn : Nat

namespace SLen
variable (C : SLen)

/-- The action `jump` is the first one of the trigger `t`. -/
def jp : Nat := C.t + 328
def nb (i : Nat) : Nat := C.b ((i + 1) % 4)

/-- The dwords that the loop changes. -/
def loopScr : List Nat := [C.b 0 + 4, C.b 1 + 4, C.b 2 + 4, C.b 3 + 4, C.ret + 348, cpAddr]
/-- The dwords that the body changes. -/
def scr (cpc : Nat) : List Nat := [C.b 0 + 4, C.b 1 + 4, C.b 2 + 4, C.b 3 + 4, C.ret + 348, cpAddr, C.jp + 20, C.ev + 4, C.ev + 344, cpc + 4, cpc + 344, C.fr + 348]
/-- All dwords that a call changes. -/
def own (cpc : Nat) : List Nat := C.scr cpc ++ [C.np, C.fr + 4, C.fr + 344, C.ev + 348, C.sv + 348]

/-- `DeathsX(CurrentPlayer, AtLeast, 1, 0, 0xFF << (8 * i))` -/
def cond (i : Nat) : PC := ⟨.check (some (.cp 0)) .atLeast (some 1) (some (byteMask 1 i)), none⟩

/-- The actions of `b[i]`. -/
def acts (i : Nat) : List PA :=
  [aMem (C.b i + 4) .set (BitVec.ofNat 32 (C.nb i)), aMem (C.nb i + 4) .set (BitVec.ofNat 32 C.le), aMem (C.ret + 348) .add 1] ++ if i = 3 then [aMem cpAddr .add 1] else []

/-- strfunc.py:85-117: runs of the triggers `b[i]` from `b[i]` on, until `loopend`. -/
inductive Loop (L : Layout) (C : SLen) : Mem → Nat → Mem → Prop
  | stop {s : Mem} {i : Nat} (hi : i < 4) (hp : ¬ L.priv (epdAddr (s cpAddr))) (hc : (cond i).holds s = false) (he : s (C.b i + 4) = BitVec.ofNat 32 C.le) : Loop L C s i s
  | more {s s' : Mem} {i : Nat} (hi : i < 4) (hp : ¬ L.priv (epdAddr (s cpAddr))) (hc : (cond i).holds s = true) (h : Loop L C (runPA (C.acts i) s) ((i + 1) % 4) s') : Loop L C s i s'

/-- The trigger of `epd`, then the loop. -/
def Rel (L : Layout) (s s' : Mem) : Prop :=
  s (C.ev + 352) = pmod .set ∧ s (C.ev + 344) = epd cpAddr ∧ ∃ i < 4, s (C.ev + 4) = BitVec.ofNat 32 (C.b i) ∧ Loop L C (s.set cpAddr (s (C.ev + 348))) i s'

/-- strfunc.py:69-76: the trigger for alignment `i` -/
def pre (i : Nat) : Stmt :=
  .trig [cMemX (C.sv + 348) .exactly (BitVec.ofNat 32 i) 3] [aMem (C.jp + 20) .set (BitVec.ofNat 32 (C.b i)), aMem (C.b i + 4) .set (BitVec.ofNat 32 C.le)]

/-- strfunc.py:77-80 -/
def start : Stmt := .trig [] [aMemV (C.ev + 4) .set C.jp, aMem (C.ev + 344) .set (epd cpAddr), aMem (C.ret + 348) .set 0]

/-- strfunc.py:63-121 `_strlen_epd` -/
def body (L : Layout) (cpc : Nat) : Stmt :=
  .seq (.seqs ((List.range 4).map C.pre)) (.seq C.start (.seq (.prim (C.Rel L)) (.seq (cpBack L cpc C.cn) (retVar C.fr C.ret))))

/-- The triggers and variables of the loop are in place. -/
structure Ok (L : Layout) (cpc : Nat) : Prop where
  pe : PVar L C.ev
  pc : PVar L cpc
  cs : L.cell (C.sv + 348)
  cr : L.cell (C.ret + 348)
  vr : C.ret ∈ L.P.vars
  cj : L.cell (C.jp + 20)
  cf : L.cell (C.fr + 348)
  ccp : L.cell cpAddr
  blk : ∀ i < 4, (⟨C.b i, ⟨[cond i].map PC.c, (C.acts i).map PA.a⟩, none, false⟩ : SBlk) ∈ L.P.blks
  cb : ∀ i < 4, L.cell (C.b i + 4)
  lt : C.le < 2 ^ 32 ∧ ∀ i < 4, C.b i < 2 ^ 32
  nd : (C.own cpc ++ [C.ev + 352, cpc + 348, cpc + 352]).Nodup

end SLen

theorem SLen.cond_holds (s : Mem) (i : Nat) (hi : i < 4) : (SLen.cond i).holds s = decide ((s (epdAddr (s cpAddr))).extractLsb' (8 * i) 8 ≠ 0) := by
  simp only [PC.holds, SLen.cond, SCnd.res, Option.getD_some, Cnd.holds, cpAt0, compare]
  generalize s (epdAddr (s cpAddr)) = w
  have key : (w &&& byteMask 1 i) = 0 ↔ w.extractLsb' (8 * i) 8 = 0 := by
    constructor
    · intro h
      apply BitVec.eq_of_getLsbD_eq
      intro j hj
      have := congrArg (fun x : BitVec 32 => x.getLsbD (8 * i + j)) h
      simp only [BitVec.getLsbD_and, byteMask_bit 1 i (8 * i + j) (by omega), BitVec.getLsbD_zero] at this
      simp only [BitVec.getLsbD_extractLsb', BitVec.getLsbD_zero]
      rw [show decide (8 * i ≤ 8 * i + j) = true from by simp, show decide (8 * i + j < 8 * i + 8 * 1) = true from by simp; omega] at this
      simpa using fun _ => this
    · intro h
      apply BitVec.eq_of_getLsbD_eq
      intro j hj
      rw [BitVec.getLsbD_and, byteMask_bit _ _ _ hj]
      by_cases h1 : 8 * i ≤ j ∧ j < 8 * i + 8 * 1
      · have := congrArg (fun x : BitVec 8 => x.getLsbD (j - 8 * i)) h
        simp only [BitVec.getLsbD_extractLsb', BitVec.getLsbD_zero] at this
        rw [show 8 * i + (j - 8 * i) = j by omega, show decide (j - 8 * i < 8) = true from by simp; omega] at this
        simp at this
        simp [this]
      · have : (decide (8 * i ≤ j) && decide (j < 8 * i + 8 * 1)) = false := by simp; omega
        simp [this]
  rw [decide_eq_decide]
  rw [ne_eq, ← key]
  generalize w &&& byteMask 1 i = v
  constructor
  · rintro h rfl; exact absurd h (by decide)
  · intro h
    rw [BitVec.le_def]
    have : v.toNat ≠ 0 := fun e => h (BitVec.eq_of_toNat_eq e)
    show 1 ≤ v.toNat
    omega

theorem SLen.nds {L : Layout} {C : SLen} {cpc : Nat} (hC : C.Ok L cpc) : (C.b 0 + 4 ≠ C.b 1 + 4 ∧ C.b 1 + 4 ≠ C.b 2 + 4 ∧ C.b 2 + 4 ≠ C.b 3 + 4 ∧ C.b 3 + 4 ≠ C.b 0 + 4) ∧
    ∀ i < 4, C.b i + 4 ≠ C.ret + 348 ∧ C.b i + 4 ≠ cpAddr ∧ C.ret + 348 ≠ cpAddr := by
  have nd := hC.nd
  unfold own scr at nd
  simp only [List.cons_append, List.nodup_cons, List.mem_cons, not_or] at nd
  refine ⟨⟨by grind, by grind, by grind, by grind⟩, fun i hi => ?_⟩
  match i, hi with
  | 0, _ => grind
  | 1, _ => grind
  | 2, _ => grind
  | 3, _ => grind

/-- The effect of the actions of `b[i]`. -/
theorem SLen.acts_eff {L : Layout} {C : SLen} {cpc : Nat} (hC : C.Ok L cpc) {i : Nat} (hi : i < 4) (s : Mem) :
    ActsOk L (C.acts i) s ∧ runPA (C.acts i) s (C.b i + 4) = BitVec.ofNat 32 (C.nb i) ∧ runPA (C.acts i) s (C.nb i + 4) = BitVec.ofNat 32 C.le ∧
    runPA (C.acts i) s (C.ret + 348) = s (C.ret + 348) + 1 ∧ runPA (C.acts i) s cpAddr = (if i = 3 then s cpAddr + 1 else s cpAddr) ∧ Only C.loopScr s (runPA (C.acts i) s) := by
  obtain ⟨⟨n1, n2, n3, n4⟩, nr⟩ := SLen.nds hC
  have c0 := hC.cb i hi
  have c1 := hC.cb ((i + 1) % 4) (by omega)
  obtain ⟨r1, r2, r3⟩ := nr i hi
  obtain ⟨q1, q2, -⟩ := nr ((i + 1) % 4) (by omega)
  have e : C.b i + 4 ≠ C.b ((i + 1) % 4) + 4 ∧ C.b i + 4 ∈ C.loopScr ∧ C.b ((i + 1) % 4) + 4 ∈ C.loopScr := by
    match i, hi with
    | 0, _ => exact ⟨n1, by simp [loopScr], by simp [loopScr]⟩
    | 1, _ => exact ⟨n2, by simp [loopScr], by simp [loopScr]⟩
    | 2, _ => exact ⟨n3, by simp [loopScr], by simp [loopScr]⟩
    | 3, _ => exact ⟨n4, by simp [loopScr], by simp [loopScr]⟩
  obtain ⟨e1, e2, e3⟩ := e
  have o2 : C.ret + 348 ∈ C.loopScr := by simp [loopScr]
  have o3 : cpAddr ∈ C.loopScr := by simp [loopScr]
  unfold acts nb
  generalize C.b ((i + 1) % 4) = B1 at *
  generalize C.b i = B0 at *
  by_cases h3 : i = 3
  · simp only [if_pos h3, List.cons_append, List.nil_append]
    refine ⟨actsOk_mem c0 (actsOk_mem c1 (actsOk_mem hC.cr (actsOk_mem hC.ccp trivial))), ?_⟩
    simp only [runPA_cons, runPA_nil, aMem_run, arith]
    refine ⟨?_, ?_, ?_, ?_, (((Only.refl _ s).set e2 _).set e3 _).set o2 _ |>.set o3 _⟩ <;> simp only [get_set] <;> grind
  · simp only [if_neg h3, List.append_nil]
    refine ⟨actsOk_mem c0 (actsOk_mem c1 (actsOk_mem hC.cr trivial)), ?_⟩
    simp only [runPA_cons, runPA_nil, aMem_run, arith]
    refine ⟨?_, ?_, ?_, ?_, (((Only.refl _ s).set e2 _).set e3 _).set o2 _⟩ <;> simp only [get_set] <;> grind

theorem SLen.acts_placed (C : SLen) (i a : Nat) : PlacedA a (C.acts i) := by
  unfold acts
  split <;> simp only [List.cons_append, List.nil_append, List.append_nil]
  · exact ⟨⟨rfl, rfl, rfl⟩, ⟨rfl, rfl, rfl⟩, ⟨rfl, rfl, rfl⟩, ⟨rfl, rfl, rfl⟩, trivial⟩
  · exact ⟨⟨rfl, rfl, rfl⟩, ⟨rfl, rfl, rfl⟩, ⟨rfl, rfl, rfl⟩, trivial⟩

/-- The loop runs. -/
theorem SLen.Loop.runs {L : Layout} (hw : L.Wf) {C : SLen} {cpc : Nat} (hC : C.Ok L cpc) {s s' : Mem} {i : Nat} (h : SLen.Loop L C s i s') : L.Runs s (C.b i) s' C.le := by
  induction h with
  | stop hi hp hc he =>
    rename_i s i
    have := Layout.Runs.dyn hw (cs := [cond i]) (as := C.acts i) (hC.blk i hi) (hC.cb i hi).2 ⟨⟨rfl, rfl, rfl⟩, trivial⟩ (C.acts_placed _ _) (s := s)
      (by simp only [List.mem_singleton, forall_eq]; exact ⟨trivial, by simp only [cond, SCnd.res, Option.getD_some]; rw [cpAt0]; exact hp⟩)
      (by simp [holdsAll_cons, hc])
    simp only [holdsAll_cons, hc, Bool.false_and, Bool.false_eq_true, if_false] at this
    rwa [he, BitVec.toNat_ofNat, Nat.mod_eq_of_lt hC.lt.1] at this
  | more hi hp hc h ih =>
    rename_i s s' i
    obtain ⟨a1, a2, -⟩ := SLen.acts_eff hC hi s
    have := Layout.Runs.dyn hw (cs := [cond i]) (as := C.acts i) (hC.blk i hi) (hC.cb i hi).2 ⟨⟨rfl, rfl, rfl⟩, trivial⟩ (C.acts_placed _ _) (s := s)
      (by simp only [List.mem_singleton, forall_eq]; exact ⟨trivial, by simp only [cond, SCnd.res, Option.getD_some]; rw [cpAt0]; exact hp⟩)
      (fun _ => a1)
    simp only [holdsAll_cons, holdsAll_nil, hc, Bool.true_and, if_true] at this
    rw [a2, BitVec.toNat_ofNat, show C.nb i % 2 ^ 32 = C.b ((i + 1) % 4) from Nat.mod_eq_of_lt (hC.lt.2 _ (by omega))] at this
    exact this.trans ih

/-- What is needed of the bytes that are read: ordinary dwords, not among those in `S`. -/
def StrIn (L : Layout) (S : List Nat) (p n : Nat) : Prop := ∀ k ≤ n, ¬ L.priv (posB p k / 4 * 4) ∧ posB p k / 4 * 4 ∉ S

theorem epdAddr_mod4 (e : W) : epdAddr e % 4 = 0 ∧ epdAddr e < 2 ^ 32 := by
  unfold epdAddr
  simp only [deathTable]
  omega

/-- **The loop counts the bytes before the first zero.** -/
theorem SLen.loop_ex {L : Layout} {C : SLen} {cpc : Nat} (hC : C.Ok L cpc) : ∀ (n : Nat) (s : Mem) (i : Nat), i < 4 → s (C.b i + 4) = BitVec.ofNat 32 C.le →
    StrIn L C.loopScr (epdAddr (s cpAddr) + i) n → StrLen s (epdAddr (s cpAddr) + i) n →
    ∃ s', SLen.Loop L C s i s' ∧ s' (C.ret + 348) = s (C.ret + 348) + BitVec.ofNat 32 n ∧ Only C.loopScr s s' := by
  intro n
  induction n with
  | zero =>
    intro s i hi he hS hL
    obtain ⟨m4, mlt⟩ := epdAddr_mod4 (s cpAddr)
    have p0 : posB (epdAddr (s cpAddr) + i) 0 = epdAddr (s cpAddr) + i := by unfold posB; omega
    have := hS 0 (by omega)
    rw [p0, show (epdAddr (s cpAddr) + i) / 4 * 4 = epdAddr (s cpAddr) by omega] at this
    have h0 := hL.2
    rw [p0, byteAt, show (epdAddr (s cpAddr) + i) / 4 * 4 = epdAddr (s cpAddr) by omega, show (epdAddr (s cpAddr) + i) % 4 = i by omega] at h0
    refine ⟨s, .stop hi this.1 (by rw [cond_holds s i hi, h0]; rfl) he, by simp, Only.refl _ s⟩
  | succ n ih =>
    intro s i hi he hS hL
    obtain ⟨m4, mlt⟩ := epdAddr_mod4 (s cpAddr)
    have p0 : posB (epdAddr (s cpAddr) + i) 0 = epdAddr (s cpAddr) + i := by unfold posB; omega
    have hp := (hS 0 (by omega)).1
    rw [p0, show (epdAddr (s cpAddr) + i) / 4 * 4 = epdAddr (s cpAddr) by omega] at hp
    have h0 := hL.1 0 (by omega)
    rw [p0, byteAt, show (epdAddr (s cpAddr) + i) / 4 * 4 = epdAddr (s cpAddr) by omega, show (epdAddr (s cpAddr) + i) % 4 = i by omega] at h0
    obtain ⟨a1, a2, a3, a4, a5, a6⟩ := SLen.acts_eff hC hi s
    have hpos : ∀ k, posB (epdAddr (runPA (C.acts i) s cpAddr) + (i + 1) % 4) k = posB (epdAddr (s cpAddr) + i) (k + 1) := by
      intro k
      rw [a5]
      split
      · rename_i h3
        subst h3
        have := epdAddr_off (s cpAddr) 1
        rw [show BitVec.ofNat 32 1 = (1 : BitVec 32) from rfl] at this
        rw [this]
        unfold posB; omega
      · unfold posB; omega
    have hb : ∀ k ≤ n, byteAt (runPA (C.acts i) s) (posB (epdAddr (s cpAddr) + i) (k + 1)) = byteAt s (posB (epdAddr (s cpAddr) + i) (k + 1)) := by
      intro k hk
      unfold byteAt
      rw [a6 _ (hS (k + 1) (by omega)).2]
    obtain ⟨s', g1, g2, g3⟩ := ih (runPA (C.acts i) s) ((i + 1) % 4) (by omega) a3
      (fun k hk => by rw [hpos]; exact hS (k + 1) (by omega))
      ⟨fun k hk => by rw [hpos, hb k (by omega)]; exact hL.1 (k + 1) (by omega), by rw [hpos, hb n (by omega)]; exact hL.2⟩
    refine ⟨s', .more hi hp (by rw [cond_holds s i hi]; exact decide_eq_true h0) g1, ?_, a6.trans g3⟩
    rw [g2, a4, BitVec.add_assoc]
    congr 1
    rw [BitVec.ofNat_add, BitVec.add_comm]
    rfl

theorem SLen.rel_code {L : Layout} (hw : L.Wf) {C : SLen} {cpc : Nat} (hC : C.Ok L cpc) {r b k : Nat} : Code L r b k (.prim (C.Rel L)) C.ev C.le := by
  refine .prim ?_
  rintro s s' ⟨h1, h2, i, hi, h3, h4⟩
  have h := Layout.Runs.pvar hC.pe h1 h2 epdOK_cp hC.ccp
  have nd := hC.nd
  unfold own scr at nd
  simp only [List.cons_append, List.nodup_cons, List.mem_cons, not_or] at nd
  rw [set_ne (by grind), h3, BitVec.toNat_ofNat, Nat.mod_eq_of_lt (hC.lt.2 i hi)] at h
  exact h.trans (h4.runs hw hC)

/-- What the four triggers for the alignment leave. -/
theorem SLen.pre_does {L : Layout} {C : SLen} {cpc : Nat} (hC : C.Ok L cpc) (s : Mem) :
    Does L (.seqs ((List.range 4).map C.pre)) s fun s' => ∃ i < 4, i = (s (C.sv + 348)).toNat % 4 ∧ s' (C.jp + 20) = BitVec.ofNat 32 (C.b i) ∧ s' (C.b i + 4) = BitVec.ofNat 32 C.le ∧
      Only (C.scr cpc) s s' ∧ s' (C.ev + 348) = s (C.ev + 348) := by
  have nd := hC.nd
  unfold own scr at nd
  simp only [List.cons_append, List.nil_append, List.nodup_cons, List.mem_cons, not_or] at nd
  have nb : ∀ i < 4, C.b i + 4 ∈ C.scr cpc ∧ C.b i + 4 ≠ C.jp + 20 ∧ C.b i + 4 ≠ C.sv + 348 ∧ C.b i + 4 ≠ C.ev + 348 := by
    intro i hi
    match i, hi with
    | 0, _ => exact ⟨by simp [scr], by grind, by grind, by grind⟩
    | 1, _ => exact ⟨by simp [scr], by grind, by grind, by grind⟩
    | 2, _ => exact ⟨by simp [scr], by grind, by grind, by grind⟩
    | 3, _ => exact ⟨by simp [scr], by grind, by grind, by grind⟩
  have nj : C.jp + 20 ≠ C.sv + 348 ∧ C.jp + 20 ≠ C.ev + 348 := by grind
  have m3 : s (C.sv + 348) &&& 3 = BitVec.ofNat 32 ((s (C.sv + 348)).toNat % 4) := by
    apply BitVec.eq_of_toNat_eq
    rw [BitVec.toNat_and, BitVec.toNat_ofNat, show (3 : BitVec 32).toNat = 2 ^ 2 - 1 from rfl, Nat.and_two_pow_sub_one_eq_mod]
    omega
  generalize hi0 : (s (C.sv + 348)).toNat % 4 = i0 at *
  have hlt : i0 < 4 := by omega
  refine Does.mono (Does.chain C.pre (fun l s' => ((s' (C.jp + 20) = BitVec.ofNat 32 (C.b i0) ∧ s' (C.b i0 + 4) = BitVec.ofNat 32 C.le) ∨ i0 ∈ l) ∧
    Only (C.scr cpc) s s' ∧ s' (C.ev + 348) = s (C.ev + 348) ∧ s' (C.sv + 348) = s (C.sv + 348)) (List.range 4) s ⟨.inr (List.mem_range.2 hlt), Only.refl _ s, rfl, rfl⟩ ?_) ?_
  · rintro i l s1 hm ⟨h1, h2, h3, h4⟩
    have hi := List.mem_range.1 hm
    obtain ⟨b1, b2, b3, b4⟩ := nb i hi
    have hh : holdsAll s1 [cMemX (C.sv + 348) .exactly (BitVec.ofNat 32 i) 3] = decide (i0 = i) := by
      simp only [holdsAll_cons, holdsAll_nil, cMemX_holds, h4, m3, compare, Bool.and_true]
      rw [decide_eq_decide]
      constructor
      · intro e
        have := congrArg BitVec.toNat e
        simp only [BitVec.toNat_ofNat] at this
        omega
      · rintro rfl; rfl
    refine Does.trig (by simp only [List.mem_singleton, forall_eq]; exact cMemX_ok hC.cs _ _ _ _) (fun h => ⟨actsOk_mem hC.cj (actsOk_mem (hC.cb i hi) trivial), ?_⟩) (fun h => ?_)
    · rw [hh] at h
      have h := of_decide_eq_true h
      subst h
      simp only [runPA_cons, runPA_nil, aMem_run, arith]
      refine ⟨.inl ⟨?_, ?_⟩, (h2.set (by simp [scr]) _).set b1 _, ?_, ?_⟩
      · rw [set_ne (Ne.symm b2), set_eq]
      · rw [set_eq]
      · rw [set_ne (Ne.symm b4), set_ne (Ne.symm nj.2), h3]
      · rw [set_ne (Ne.symm b3), set_ne (Ne.symm nj.1), h4]
    · rw [hh] at h
      have h := of_decide_eq_false h
      exact ⟨h1.imp id fun hm => (List.mem_cons.1 hm).resolve_left h, h2, h3, h4⟩
  · rintro s' ⟨h1, h2, h3, -⟩
    obtain ⟨h5, h6⟩ := h1.resolve_right (by simp)
    exact ⟨i0, hlt, rfl, h5, h6, h2, h3⟩

/-- The body counts. -/
theorem SLen.body_wp {L : Layout} {C : SLen} {cpc : Nat} (hC : C.Ok L cpc) {s : Mem} (hm : s (C.ev + 352) = pmod .set) (hcm : s (cpc + 352) = pmod .set) {n : Nat}
    (hS : StrIn L (C.own cpc) (epdAddr (s (C.ev + 348)) + (s (C.sv + 348)).toNat % 4) n) (hL : StrLen s (epdAddr (s (C.ev + 348)) + (s (C.sv + 348)).toNat % 4) n) :
    Wp L (C.body L cpc) s fun o s' => (o = .nrm ∨ o = .ret) ∧ (s' (C.fr + 348) = BitVec.ofNat 32 n ∧ s' cpAddr = s (cpc + 348)) ∧ Only (C.scr cpc) s s' := by
  have nd := hC.nd
  unfold own scr at nd
  simp only [List.cons_append, List.nil_append, List.nodup_cons, List.mem_cons, List.not_mem_nil, or_false, not_or] at nd
  refine Wp.seqN ((SLen.pre_does hC s).mono ?_)
  rintro s1 ⟨i, hi, rfl, h1, h2, h3, h4⟩
  generalize hi0 : (s (C.sv + 348)).toNat % 4 = i at *
  have nb : C.b i + 4 ≠ C.ev + 4 ∧ C.b i + 4 ≠ C.ev + 344 ∧ C.b i + 4 ≠ C.ret + 348 ∧ C.b i + 4 ≠ cpAddr := by
    match i, hi with
    | 0, _ => grind
    | 1, _ => grind
    | 2, _ => grind
    | 3, _ => grind
  have hm1 : s1 (C.ev + 352) = pmod .set := by rw [h3 _ (by simp only [scr, List.mem_cons, List.not_mem_nil, or_false, not_or]; grind), hm]
  refine Wp.seqN (Does.acts (actsOk_memV hC.pe.nxt (actsOk_mem hC.pe.dst (actsOk_mem hC.cr trivial))) ?_)
  simp only [runPA_cons, runPA_nil, aMem_run, aMemV_run, arith, h1]
  generalize hs2 : ((s1.set (C.ev + 4) (BitVec.ofNat 32 (C.b i))).set (C.ev + 344) (epd cpAddr)).set (C.ret + 348) 0 = s2
  have o2 : Only (C.scr cpc) s s2 := by
    rw [← hs2]
    exact ((h3.set (by simp [scr]) _).set (by simp [scr]) _).set (by simp [scr]) _
  have e1 : s2 (C.ev + 352) = pmod .set := by rw [← hs2]; simp only [get_set]; grind
  have e2 : s2 (C.ev + 344) = epd cpAddr := by rw [← hs2]; simp only [get_set]; grind
  have e3 : s2 (C.ev + 4) = BitVec.ofNat 32 (C.b i) := by rw [← hs2]; simp only [get_set]; grind
  have e4 : s2 (C.ev + 348) = s (C.ev + 348) := by rw [← hs2]; simp only [get_set]; grind
  have e5 : s2 (C.b i + 4) = BitVec.ofNat 32 C.le := by rw [← hs2]; simp only [get_set]; grind
  have e6 : s2 (C.ret + 348) = 0 := by rw [← hs2]; simp only [get_set]; grind
  have ocp : cpAddr ∈ C.scr cpc := by simp [scr]
  have lsub : ∀ x ∈ C.loopScr, x ∈ C.scr cpc := by
    intro x hx
    simp only [loopScr, scr, List.mem_cons, List.not_mem_nil, or_false] at hx ⊢
    grind
  have osub : ∀ x ∈ C.scr cpc, x ∈ C.own cpc := fun x hx => List.mem_append_left _ hx
  obtain ⟨s3, g1, g2, g3⟩ := SLen.loop_ex hC n (s2.set cpAddr (s2 (C.ev + 348))) i hi (by rw [set_ne nb.2.2.2, e5])
    (by rw [set_eq, e4]; exact fun k hk => ⟨(hS k hk).1, fun hx => (hS k hk).2 (osub _ (lsub _ hx))⟩)
    (by
      rw [set_eq, e4]
      have hb : ∀ k ≤ n, byteAt (s2.set cpAddr (s (C.ev + 348))) (posB (epdAddr (s (C.ev + 348)) + i) k) = byteAt s (posB (epdAddr (s (C.ev + 348)) + i) k) := by
        intro k hk
        unfold byteAt
        rw [(o2.set ocp _) _ fun hx => (hS k hk).2 (osub _ hx)]
      exact ⟨fun k hk => by rw [hb k (by omega)]; exact hL.1 k hk, by rw [hb n (by omega)]; exact hL.2⟩)
  have o3 : Only (C.scr cpc) s s3 := (o2.set ocp _).trans (g3.mono lsub)
  refine Wp.seqN (Does.prim ⟨e1, e2, i, hi, e3, g1⟩ ?_)
  refine Wp.seqN ((cpBack_does hC.pc hC.ccp (by simp only [List.mem_cons, List.not_mem_nil, or_false, not_or]; grind)
    (s := s3) (by rw [o3 _ (by simp only [scr, List.mem_cons, List.not_mem_nil, or_false, not_or]; grind), hcm])).mono ?_)
  rintro s4 ⟨k1, k2⟩
  have o4 : Only (C.scr cpc) s s4 := o3.trans (k2.mono (by
    intro x hx
    simp only [cpBackScr, scr, List.mem_cons, List.not_mem_nil, or_false] at hx ⊢
    grind))
  refine Wp.seqN (Does.asg (by simpa using hC.cf) (by simpa using hC.vr) (Wp.ret ⟨Or.inr rfl, ⟨?_, ?_⟩, o4.set (by simp [scr]) _⟩))
  · simp only [runAsg, arith, set_eq]
    rw [valM_var, k2 _ (by simp only [cpBackScr, List.mem_cons, List.not_mem_nil, or_false, not_or]; grind), g2, set_ne (by grind), e6]
    simp
  · simp only [runAsg]
    rw [set_ne (by grind), k1, o3 _ (by simp only [scr, List.mem_cons, List.not_mem_nil, or_false, not_or]; grind)]

/-- `f_strlen_epd(e, i, ret=[o])` -/
def SLen.call (C : SLen) (L : Layout) (cpc back o : Nat) (e i : Src) : Stmt := .prim (CallRel L C.fe C.np back (C.body L cpc) [(C.fr, o)] [(C.ev + 348, e), (C.sv + 348, i)])

/-- **C36: `f_strlen_epd`** counts the bytes before the first zero, from byte `subp % 4` of the dword at `epd` on, however many there are and wherever they are.  It changes only its own dwords and the result,
and leaves the current player as the cache says. -/
theorem C36_strlen_epd {L : Layout} (hw : L.Wf) {C : SLen} {cpc : Nat} (hC : C.Ok L cpc) (hF : FuncCode L C.fs C.fe C.np [C.fr] (C.body L cpc)) {back o : Nat} {e i : Src} (hb : back < 2 ^ 32)
    (hO : CallOk L C.np [(C.fr, o)] [(C.ev + 348, e), (C.sv + 348, i)] (C.scr cpc)) (ho : o ≠ cpAddr) {s : Mem} (hm : s (C.ev + 352) = pmod .set) (hcm : s (cpc + 352) = pmod .set) {n : Nat}
    (hS : StrIn L (C.own cpc) (epdAddr (e.valM s) + (i.valM s).toNat % 4) n) (hL : StrLen s (epdAddr (e.valM s) + (i.valM s).toNat % 4) n) :
    Does L (C.call L cpc back o e i) s fun s' => s' o = BitVec.ofNat 32 n ∧ s' cpAddr = s (cpc + 348) ∧ Only (o :: C.own cpc) s s' := by
  have nd := hC.nd
  unfold SLen.own SLen.scr at nd
  simp only [List.cons_append, List.nil_append, List.nodup_cons, List.mem_cons, List.not_mem_nil, or_false, not_or] at nd
  refine (C31_does hw hO hF hb (s := s) (Q := fun s2 => s2 (C.fr + 348) = BitVec.ofNat 32 n ∧ s2 cpAddr = s (cpc + 348)) ?_).mono ?_
  · intro s1 e1 e2
    simp only [List.mem_cons, List.not_mem_nil, or_false, forall_eq_or_imp, forall_eq] at e1
    have sub : ∀ x, x ∈ (C.np :: ([(C.fr, o)].map (fun r => r.1 + 344) ++ [(C.ev + 348, e), (C.sv + 348, i)].map Prod.fst)) → x ∈ C.own cpc := by
      intro x hx
      simp only [SLen.own, SLen.scr, List.map_cons, List.map_nil, List.cons_append, List.nil_append, List.mem_cons, List.not_mem_nil, or_false] at hx ⊢
      grind
    have hb : ∀ k ≤ n, byteAt s1 (posB (epdAddr (e.valM s) + (i.valM s).toNat % 4) k) = byteAt s (posB (epdAddr (e.valM s) + (i.valM s).toNat % 4) k) := by
      intro k hk
      unfold byteAt
      rw [e2 _ fun hx => (hS k hk).2 (sub _ hx)]
    refine (SLen.body_wp hC (n := n) (s := s1) ?_ ?_ ?_ ?_).mono ?_
    · rw [e2 _ (by simp only [List.map_cons, List.map_nil, List.cons_append, List.nil_append, List.mem_cons, List.not_mem_nil, or_false]; grind), hm]
    · rw [e2 _ (by simp only [List.map_cons, List.map_nil, List.cons_append, List.nil_append, List.mem_cons, List.not_mem_nil, or_false]; grind), hcm]
    · rw [e1.1, e1.2]; exact hS
    · rw [e1.1, e1.2]; exact ⟨fun k hk => by rw [hb k (by omega)]; exact hL.1 k hk, by rw [hb n (by omega)]; exact hL.2⟩
    · rintro q s2 ⟨h1, ⟨h2, h3⟩, h4⟩
      refine ⟨h1, ⟨h2, ?_⟩, h4⟩
      rw [h3, e2 _ (by simp only [List.map_cons, List.map_nil, List.cons_append, List.nil_append, List.mem_cons, List.not_mem_nil, or_false]; grind)]
  · rintro s' ⟨⟨s2, ⟨g1, g2⟩, g3, g4⟩, g5⟩
    simp only [List.mem_cons, List.not_mem_nil, or_false, forall_eq] at g3
    refine ⟨by rw [g3, g1], ?_, g5.mono fun y hy => ?_⟩
    · rw [g4 _ (by simp only [List.map_cons, List.map_nil, List.cons_append, List.nil_append, List.mem_cons, List.not_mem_nil, or_false]; grind), g2]
    · simp only [callOnly, SLen.own, SLen.scr, List.map_cons, List.map_nil, List.cons_append, List.nil_append, List.mem_cons, List.not_mem_nil, or_false] at hy ⊢
      grind

/-- strfunc.py:124-127 `f_strlen(x, ret=[o])`; `q`, `r` are the variables that `f_div` gives. -/
def SLen.strlen (C : SLen) (D : Div4) (L : Layout) (cpc b1 b2 q r o : Nat) (x : Src) : Stmt :=
  .seq (D.call L b1 (q + 348) (r + 348) x)
    (.seq (.asg [⟨q + 348, .add, .const (BitVec.ofNat 32 (2 ^ 32 - 0x58A364 / 4))⟩]) (C.call L cpc b2 o (.var q) (.var r)))

/-- **C36: `f_strlen`** of any address, aligned or not, is the number of bytes before the first zero. -/
theorem C36_strlen {L : Layout} (hw : L.Wf) {C : SLen} {cpc : Nat} (hC : C.Ok L cpc) (hF : FuncCode L C.fs C.fe C.np [C.fr] (C.body L cpc)) {D : Div4} (hD : Div4Ok L D) {b1 b2 q r o : Nat} {x : Src}
    (hb1 : b1 < 2 ^ 32) (hb2 : b2 < 2 ^ 32) (hO1 : CallOk L D.np [(D.q, q + 348), (D.a, r + 348)] [(D.a + 348, x)] [D.a + 348, D.q + 348])
    (hO : CallOk L C.np [(C.fr, o)] [(C.ev + 348, .var q), (C.sv + 348, .var r)] (C.scr cpc)) (ho : o ≠ cpAddr) (cq : L.cell (q + 348)) (nqr : q ≠ r)
    (hn : ∀ y ∈ [C.ev + 352, cpc + 348, cpc + 352], y ∉ (q + 348) :: (r + 348) :: D.own) {s : Mem} (hm : s (C.ev + 352) = pmod .set) (hcm : s (cpc + 352) = pmod .set) {n : Nat}
    (hS : StrIn L ((q + 348) :: (r + 348) :: (D.own ++ C.own cpc)) (x.valM s).toNat n) (hL : StrLen s (x.valM s).toNat n) :
    Does L (C.strlen D L cpc b1 b2 q r o x) s fun s' => s' o = BitVec.ofNat 32 n ∧ s' cpAddr = s (cpc + 348) ∧ Only (o :: (q + 348) :: (r + 348) :: (D.own ++ C.own cpc)) s s' := by
  simp only [List.mem_cons, List.not_mem_nil, or_false, forall_eq_or_imp, forall_eq, not_or] at hn
  refine Does.seq ((D.does hw hD hb1 hO1 s).mono ?_)
  rintro s1 ⟨g1, g2, g3⟩
  have hlt := (x.valM s).isLt
  generalize (x.valM s).toNat = p at *
  refine Does.seq (Does.asg (by simpa using cq) (by simp) ?_)
  simp only [runAsg, arith, show Src.valM s1 (.const (BitVec.ofNat 32 (2 ^ 32 - 0x58A364 / 4))) = BitVec.ofNat 32 (2 ^ 32 - 0x58A364 / 4) from rfl]
  generalize hs2 : s1.set (q + 348) (s1 (q + 348) + BitVec.ofNat 32 (2 ^ 32 - 0x58A364 / 4)) = s2
  have o2 : Only ((q + 348) :: (r + 348) :: D.own) s s2 := by rw [← hs2]; exact g3.set (by simp) _
  have e1 : epdAddr (s2 (q + 348)) = 4 * (p / 4) := by rw [← hs2, set_eq, epdAddr_ofQ g1 (by omega)]
  have e2 : (s2 (r + 348)).toNat = p % 4 := by rw [← hs2, set_ne (by omega), g2]
  have ep : epdAddr ((Src.var q).valM s2) + ((Src.var r).valM s2).toNat % 4 = p := by
    rw [valM_var, valM_var, e1, e2]; omega
  have hb : ∀ k ≤ n, byteAt s2 (posB p k) = byteAt s (posB p k) := by
    intro k hk
    unfold byteAt
    rw [o2 _ fun hx => (hS k hk).2 (by simp only [List.mem_cons, List.mem_append] at hx ⊢; grind)]
  refine (C36_strlen_epd hw hC hF hb2 hO ho (s := s2) (n := n) (by rw [o2 _ (by simp only [List.mem_cons, not_or]; exact hn.1), hm])
    (by rw [o2 _ (by simp only [List.mem_cons, not_or]; exact hn.2.2), hcm])
    (by rw [ep]; exact fun k hk => ⟨(hS k hk).1, fun hx => (hS k hk).2 (by simp only [List.mem_cons, List.mem_append] at hx ⊢; grind)⟩)
    (by rw [ep]; exact ⟨fun k hk => by rw [hb k (by omega)]; exact hL.1 k hk, by rw [hb n (by omega)]; exact hL.2⟩)).mono ?_
  rintro s' ⟨h1, h2, h3⟩
  refine ⟨h1, by rw [h2, o2 _ (by simp only [List.mem_cons, not_or]; exact hn.2.1)], (o2.mono ?_).trans (h3.mono ?_)⟩ <;>
    (intro y hy; simp only [List.mem_cons, List.mem_append] at hy ⊢; grind)

end Eud.SC
