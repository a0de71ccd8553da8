import Verif.Lib.Read
import Verif.Lib.MemWrite
import Verif.Machine.Call
/-
C36: `f_repmovsd_epd` (memio/mblockio.py): copying dwords.
-/

namespace Eud.SC

/-! ## Specification -/

/-- `n` dwords are copied one after the other, upwards, from EPD `p` to EPD `d`. -/
def movsd : Nat → W → W → Mem → Mem
  | 0, _, _, s => s
  | n + 1, d, p, s => movsd n (d + 1) (p + 1) (s.set (epdAddr d) (s (epdAddr p)))

theorem add_succ_epd (d : W) (i : Nat) : d + 1 + BitVec.ofNat 32 i = d + BitVec.ofNat 32 (i + 1) := by
  rw [BitVec.ofNat_add, BitVec.add_assoc, BitVec.add_comm (BitVec.ofNat 32 i)]
  rfl

theorem movsd_congr {S : List Nat} : ∀ (n : Nat) (d p : W) {s t : Mem}, (∀ x, x ∉ S → s x = t x) → (∀ i < n, epdAddr (p + BitVec.ofNat 32 i) ∉ S) → ∀ x, x ∉ S → movsd n d p s x = movsd n d p t x
  | 0, _, _, _, _, h, _, x, hx => h x hx
  | n + 1, d, p, s, t, h, hp, x, hx => by
    refine movsd_congr n (d + 1) (p + 1) (fun y hy => ?_) (fun i hi => by rw [add_succ_epd]; exact hp (i + 1) (by omega)) x hx
    rw [get_set, get_set]
    split
    · exact h _ (by have := hp 0 (by omega); simpa using this)
    · exact h y hy

/-- Nothing but the destination changes. -/
theorem movsd_out : ∀ (n : Nat) (d p : W) (s : Mem) (x : Nat), (∀ i < n, epdAddr (d + BitVec.ofNat 32 i) ≠ x) → movsd n d p s x = s x
  | 0, _, _, _, _, _ => rfl
  | n + 1, d, p, s, x, h => by
    rw [movsd, movsd_out n (d + 1) (p + 1) _ x (fun i hi => by rw [add_succ_epd]; exact h (i + 1) (by omega))]
    exact set_ne (Ne.symm (by simpa using h 0 (by omega)))

/-- Unless a dword is overwritten before it is copied, the destination is what the source was. -/
theorem movsd_in : ∀ (n : Nat) (d p : W) (s : Mem), (∀ i < n, ∀ j < n, epdAddr (d + BitVec.ofNat 32 i) = epdAddr (d + BitVec.ofNat 32 j) → i = j) →
    (∀ i < n, ∀ j < i, epdAddr (d + BitVec.ofNat 32 j) ≠ epdAddr (p + BitVec.ofNat 32 i)) →
    ∀ i < n, movsd n d p s (epdAddr (d + BitVec.ofNat 32 i)) = s (epdAddr (p + BitVec.ofNat 32 i))
  | 0, _, _, _, _, _, _, h => absurd h (by omega)
  | n + 1, d, p, s, hi, hn, i, h => by
    rw [movsd]
    cases i with
    | zero =>
      rw [movsd_out n _ _ _ _ (fun j hj e => ?_)]
      · simp only [BitVec.ofNat_eq_ofNat, BitVec.add_zero, set_eq]
      · rw [add_succ_epd] at e
        have := hi (j + 1) (by omega) 0 (by omega) e
        omega
    | succ i =>
      have := movsd_in n (d + 1) (p + 1) (s.set (epdAddr d) (s (epdAddr p)))
        (fun i h j h' e => by rw [add_succ_epd, add_succ_epd] at e; have := hi (i + 1) (by omega) (j + 1) (by omega) e; omega)
        (fun i h j h' => by rw [add_succ_epd, add_succ_epd]; exact hn (i + 1) (by omega) (j + 1) (by omega)) i (by omega)
      rw [add_succ_epd, add_succ_epd] at this
      rw [this]
      exact set_ne (Ne.symm (by simpa using hn (i + 1) (by omega) 0 (by omega)))

theorem epdAddr_off (d : W) (i : Nat) : epdAddr (d + BitVec.ofNat 32 i) = (epdAddr d + 4 * i) % 2 ^ 32 := by
  unfold epdAddr
  rw [BitVec.toNat_add, BitVec.toNat_ofNat]
  omega

theorem epdAddr_inj (d : W) {n i j : Nat} (hn : n ≤ 2 ^ 30) (hi : i < n) (hj : j < n) (h : epdAddr (d + BitVec.ofNat 32 i) = epdAddr (d + BitVec.ofNat 32 j)) : i = j := by
  rw [epdAddr_off, epdAddr_off] at h
  have : epdAddr d < 2 ^ 32 := Nat.mod_lt _ (by decide)
  omega

/-- At addresses: what `memmove` upwards does. -/
theorem movsd_copy {n dst src : Nat} {s : Mem} (hd : dst % 4 = 0) (hs : src % 4 = 0) (hdn : dst + 4 * n ≤ 2 ^ 32) (hsn : src + 4 * n ≤ 2 ^ 32)
    (hno : dst ≤ src ∨ src + 4 * n ≤ dst) : ∀ i < n, movsd n (epd dst) (epd src) s (dst + 4 * i) = s (src + 4 * i) := by
  intro i hi
  have ed : ∀ i < n, epdAddr (epd dst + BitVec.ofNat 32 i) = dst + 4 * i := fun i h => by rw [epdAddr_off, epdAddr_epd hd (by omega)]; omega
  have es : ∀ i < n, epdAddr (epd src + BitVec.ofNat 32 i) = src + 4 * i := fun i h => by rw [epdAddr_off, epdAddr_epd hs (by omega)]; omega
  have := movsd_in n (epd dst) (epd src) s (fun i h j h' e => by rw [ed i h, ed j h'] at e; omega) (fun i h j h' e => by rw [es i h, ed j (by omega)] at e; omega) i hi
  rwa [ed i hi, es i hi] at this

theorem movsd_other {n dst : Nat} {p : W} {s : Mem} (hd : dst % 4 = 0) (hdn : dst + 4 * n ≤ 2 ^ 32) {x : Nat} (hx : x < dst ∨ dst + 4 * n ≤ x) : movsd n (epd dst) p s x = s x := by
  refine movsd_out _ _ _ _ _ (fun i hi e => ?_)
  rw [epdAddr_off, epdAddr_epd hd (by omega)] at e
  omega

/-! ## The code -/

/-- The dwords that copying uses. -/
def repScr (rend cpc ls : Nat) : List Nat := [ls + 4, ls + 8, rend + 4, rend + 344, rend + 348, cpc + 4, cpc + 344, cpAddr]

/-- mblockio.py:24-49: the triggers, `t0`, `ls` (`loopstart`), `cn` (`contpoint`).  `copydwn` is the unused first dword of the condition of `ls`. -/
structure RepOk (L : Layout) (rend cpc t0 ls cn rd fe : Nat) : Prop where
  tab : ∃ T A, RdTab L T A rend
  rdr : Reader L rend rd 0xFFFFFFFF 0
  pv : PVar L cpc
  b0 : (⟨t0, ⟨[], [aMem (ls + 4) .set (BitVec.ofNat 32 rd), aMem (rend + 4) .set (BitVec.ofNat 32 cn), aMem (cpc + 344) .set (epd cpAddr), aMem (cpc + 4) .set (BitVec.ofNat 32 fe)].map PA.a⟩, some ls, false⟩ : SBlk) ∈ L.P.blks
  b1 : (⟨ls, ⟨[cMem (ls + 8) .exactly 0].map PC.c, [aMem (ls + 4) .set (BitVec.ofNat 32 cpc)].map PA.a⟩, none, false⟩ : SBlk) ∈ L.P.blks
  b2 : (⟨cn, ⟨[], [aMem (rend + 344) .add 1, aMem cpAddr .add 1, aMem (ls + 8) .sub 1].map PA.a⟩, some ls, false⟩ : SBlk) ∈ L.P.blks
  c4 : L.cell (ls + 4)
  c8 : L.cell (ls + 8)
  nd : (repScr rend cpc ls ++ [cpc + 348, cpc + 352]).Nodup
  lt : cpc < 2 ^ 32 ∧ cn < 2 ^ 32 ∧ rd < 2 ^ 32 ∧ fe < 2 ^ 32

/-- What is needed of source and destination: ordinary dwords, not among those in `S`. -/
def RepIn (L : Layout) (S : List Nat) (n : Nat) (d p : W) : Prop :=
  (∀ i < n, PlainEpd (d + BitVec.ofNat 32 i) ∧ L.cell (epdAddr (d + BitVec.ofNat 32 i)) ∧ epdAddr (d + BitVec.ofNat 32 i) ∉ S) ∧
  ∀ i < n, ¬ L.priv (epdAddr (p + BitVec.ofNat 32 i)) ∧ epdAddr (p + BitVec.ofNat 32 i) ∉ S

theorem RepIn.tail {L : Layout} {S : List Nat} {n : Nat} {d p : W} (h : RepIn L S (n + 1) d p) : RepIn L S n (d + 1) (p + 1) :=
  ⟨fun i hi => by rw [add_succ_epd]; exact h.1 (i + 1) (by omega), fun i hi => by rw [add_succ_epd]; exact h.2 (i + 1) (by omega)⟩

/-- `read_end_common` with any destination. -/
theorem rend_runs_dst {L : Layout} (hw : L.Wf) {T : RT} {A : Nat → Nat} {rend : Nat} (hT : RdTab L T A rend) {s : Mem} {o : Nat}
    (ho : dstOf (s (rend + 344)) 0 = some (.mem o)) (hc : L.cell o) :
    L.Runs s rend ((s.set o (s (rend + 348))).set (rend + 348) 0) (((s.set o (s (rend + 348))).set (rend + 348) 0) (rend + 4)).toNat := by
  have hres : (copyRet rend).a.res s (rend + 328) = ⟨.mem o, .set, s (rend + 348), 0xFFFFFFFF⟩ := by
    simp only [copyRet, SAct.res, Nat.add_assoc, Nat.reduceAdd, ho, Option.getD_none, Option.getD_some]
  have hrun : runPA [copyRet rend, aMem (rend + 348) .set 0] s = (s.set o (s (rend + 348))).set (rend + 348) 0 := by
    simp only [runPA, List.foldl_cons, List.foldl_nil]
    have h1 : (copyRet rend).run s = s.set o (s (rend + 348)) := by
      unfold PA.run
      rw [show (copyRet rend).pos.getD 0 = rend + 328 from rfl, hres]
      simp only [Act.apply, Dst.addr, modify_full, arith]
    rw [h1]
    simp only [PA.run, aMem, sMem_apply, arith]
  have h := Layout.Runs.dyn hw (t := rend) (cs := []) (as := [copyRet rend, aMem (rend + 348) .set 0]) hT.endb hT.c4.2 trivial
    ⟨rfl, ⟨rfl, rfl, rfl⟩, trivial⟩ (s := s) (by simp) (fun _ => by
      refine ⟨fun _ => ?_, ?_, ?_, ?_, trivial⟩
      · show (dstOf (s (rend + 328 + 16)) 0).isSome = true
        simp only [Nat.add_assoc, Nat.reduceAdd, ho]; rfl
      · rw [show (copyRet rend).pos.getD 0 = rend + 328 from rfl, hres]
        exact hc
      · intro h; cases h
      · exact hT.c348)
  have : (if holdsAll s [] = true then runPA [copyRet rend, aMem (rend + 348) .set 0] s else s) = (s.set o (s (rend + 348))).set (rend + 348) 0 := by
    rw [← hrun]; rfl
  rwa [this] at h

theorem off_ne (r : Nat) {i j : Nat} (h : i ≠ j) : r + i ≠ r + j := fun e => h (Nat.add_left_cancel e)

local macro "nee" : tactic => `(tactic| first | assumption | (apply Ne.symm; assumption) | (exact off_ne _ (by simp)))

/-- The loop. -/
theorem rep_loop {L : Layout} (hw : L.Wf) {rend cpc t0 ls cn rd fe : Nat} (hk : RepOk L rend cpc t0 ls cn rd fe) :
    ∀ (n : Nat) (s : Mem) (d p : W), n < 2 ^ 32 → RepIn L (repScr rend cpc ls) n d p → s (ls + 8) = BitVec.ofNat 32 n → s (rend + 344) = d → s cpAddr = p →
      s (ls + 4) = BitVec.ofNat 32 rd → s (rend + 4) = BitVec.ofNat 32 cn → s (rend + 348) = 0 →
      ∃ s', L.Runs s ls s' cpc ∧ s' (ls + 4) = BitVec.ofNat 32 cpc ∧ s' (ls + 8) = 0 ∧ s' (rend + 4) = BitVec.ofNat 32 cn ∧ s' (rend + 344) = d + BitVec.ofNat 32 n ∧ s' (rend + 348) = 0 ∧
        s' (cpc + 4) = s (cpc + 4) ∧ s' (cpc + 344) = s (cpc + 344) ∧ ∀ x, x ∉ repScr rend cpc ls → s' x = movsd n d p s x := by
  obtain ⟨T, A, hT⟩ := hk.tab
  have nd := hk.nd
  simp only [repScr, List.cons_append, List.nil_append, List.nodup_cons, List.mem_cons, not_or, List.not_mem_nil, not_false_eq_true, List.nodup_nil, and_true, true_and] at nd
  obtain ⟨⟨-, a2, a3, a4, a5, a6, a7, -⟩, ⟨b2, b3, b4, b5, b6, b7, -⟩, ⟨-, -, c5, c6, c7, -⟩, ⟨-, d5, d6, d7, -⟩, ⟨e5, e6, e7, -⟩, ⟨-, f7, -⟩, ⟨g7, -⟩, -⟩ := nd
  have okC : ∀ (s : Mem), ∀ q ∈ [cMem (ls + 8) .exactly 0], PC.Ok L s q := by
    intro s q hq
    simp only [List.mem_singleton] at hq
    subst hq
    exact cMem_ok hk.c8 _ _ _
  have hld : ∀ s : Mem, holdsAll s [cMem (ls + 8) .exactly 0] = decide (s (ls + 8) = 0) := by
    intro s
    simp [holdsAll, compare]
  intro n
  induction n with
  | zero =>
    intro s d p _ _ h1 h2 h3 h4 h5 h6
    have hd := Layout.Runs.dyn hw (t := ls) hk.b1 hk.c4.2 ⟨cMem_static _ _ _, trivial⟩ ⟨aMem_static _ _ _, trivial⟩ (s := s) (okC s) (fun _ => ⟨fun h => (by cases h), hk.c4, trivial⟩)
    rw [if_pos (by rw [hld, h1]; rfl)] at hd
    have er : runPA [aMem (ls + 4) .set (BitVec.ofNat 32 cpc)] s = s.set (ls + 4) (BitVec.ofNat 32 cpc) := by
      simp only [runPA, List.foldl, aMem_run, arith]
    rw [er, set_eq, BitVec.toNat_ofNat, Nat.mod_eq_of_lt hk.lt.1] at hd
    refine ⟨_, hd, set_eq _ _ _, ?_, ?_, ?_, ?_, ?_, ?_, ?_⟩
    · rw [set_ne (by nee), h1]; rfl
    · rw [set_ne (by nee), h5]
    · rw [set_ne (by nee), h2]; simp
    · rw [set_ne (by nee), h6]
    · rw [set_ne (by nee)]
    · rw [set_ne (by nee)]
    · intro x hx
      simp only [repScr, List.mem_cons, not_or] at hx
      rw [set_ne hx.1]; rfl
  | succ n ih =>
    intro s d p hn hin h1 h2 h3 h4 h5 h6
    have hd := Layout.Runs.dyn hw (t := ls) hk.b1 hk.c4.2 ⟨cMem_static _ _ _, trivial⟩ ⟨aMem_static _ _ _, trivial⟩ (s := s) (okC s) (fun _ => ⟨fun h => (by cases h), hk.c4, trivial⟩)
    have hne : ¬ s (ls + 8) = 0 := by
      rw [h1]
      intro h
      have := congrArg BitVec.toNat h
      rw [BitVec.toNat_ofNat, Nat.mod_eq_of_lt hn] at this
      exact absurd this (by simp)
    rw [if_neg (by rw [hld]; simpa using hne), h4, BitVec.toNat_ofNat, Nat.mod_eq_of_lt hk.lt.2.2.1] at hd
    obtain ⟨i1, i2, i3⟩ := hin.1 0 (by omega)
    obtain ⟨j1, j2⟩ := hin.2 0 (by omega)
    simp only [BitVec.ofNat_eq_ofNat, BitVec.add_zero] at i1 i2 i3 j1 j2
    have i3' := i3
    have j2' := j2
    simp only [repScr, List.mem_cons, not_or, List.not_mem_nil, not_false_eq_true, and_true] at i3' j2'
    obtain ⟨x1, x2, x3, x4, x5, x6, x7, x8⟩ := i3'
    have hr := hk.rdr s (by rw [h3]; exact j1) (by rw [h3]; exact j2'.2.2.2.2.1)
    rw [h3, h6, C32_dword, show ∀ w : W, (0 : W) + w = w from BitVec.zero_add] at hr
    have hz := rend_runs_dst hw hT (s := s.set (rend + 348) (s (epdAddr p))) (o := epdAddr d) (by rw [set_ne (by nee), h2]; exact dstOf_plain i1) i2
    rw [set_eq] at hz
    generalize hs2 : ((s.set (rend + 348) (s (epdAddr p))).set (epdAddr d) (s (epdAddr p))).set (rend + 348) 0 = s2 at hz
    have v2 : ∀ x, x ≠ rend + 348 → s2 x = s.set (epdAddr d) (s (epdAddr p)) x := by
      intro x hx
      rw [← hs2, set_ne hx, get_set, get_set, get_set, if_neg hx]
    have w2 : ∀ x, x ≠ rend + 348 → x ≠ epdAddr d → s2 x = s x := fun x h h' => by rw [v2 x h, set_ne h']
    rw [w2 (rend + 4) (by nee) (Ne.symm x3), h5, BitVec.toNat_ofNat, Nat.mod_eq_of_lt hk.lt.2.1] at hz
    have ht := Layout.Runs.trig hw hk.b2 rfl rfl (s := s2) trivial (fun _ => by
      refine ⟨fun h => (by cases h), hT.c344, fun h => (by cases h), hT.cp, fun h => (by cases h), hk.c8, trivial⟩)
    have e3 : (⟨cn, ⟨[], [aMem (rend + 344) .add 1, aMem cpAddr .add 1, aMem (ls + 8) .sub 1].map PA.a⟩, some ls, false⟩ : SBlk).exec s2 =
        ((s2.set (rend + 344) (d + 1)).set cpAddr (p + 1)).set (ls + 8) (BitVec.ofNat 32 n) := by
      obtain ⟨f1, -⟩ := PlacedA.spec (L := L) (as := [aMem (rend + 344) .add 1, aMem cpAddr .add 1, aMem (ls + 8) .sub 1]) (x := cn + 328) (s := s2) ⟨aMem_static _ _ _, aMem_static _ _ _, aMem_static _ _ _, trivial⟩
      simp only [SBlk.exec, condsS, if_true, f1]
      simp only [runPA, List.foldl, aMem_run]
      have q1 : arith .add (s2 (rend + 344)) 1 = d + 1 := by rw [w2 _ (by nee) (Ne.symm x4), h2]; rfl
      rw [q1]
      have q2 : arith .add (s2.set (rend + 344) (d + 1) cpAddr) 1 = p + 1 := by rw [set_ne (by nee), w2 _ (by nee) (Ne.symm x8), h3]; rfl
      rw [q2]
      have q3 : arith .sub ((s2.set (rend + 344) (d + 1)).set cpAddr (p + 1) (ls + 8)) 1 = BitVec.ofNat 32 n := by
        rw [set_ne (by nee), set_ne (by nee), w2 _ (by nee) (Ne.symm x2), h1]
        simp only [arith]
        have t1 : (BitVec.ofNat 32 (n + 1)).toNat = n + 1 := by rw [BitVec.toNat_ofNat, Nat.mod_eq_of_lt hn]
        rw [if_neg (by rw [BitVec.lt_def, t1]; simp)]
        apply BitVec.eq_of_toNat_eq
        rw [BitVec.toNat_sub_of_le (by rw [BitVec.le_def, t1]; simp), t1, BitVec.toNat_ofNat, Nat.mod_eq_of_lt (by omega)]
        simp
      rw [q3]
    rw [e3] at ht
    generalize hs3 : ((s2.set (rend + 344) (d + 1)).set cpAddr (p + 1)).set (ls + 8) (BitVec.ofNat 32 n) = s3 at ht
    have v3 : ∀ x, x ≠ rend + 344 → x ≠ cpAddr → x ≠ ls + 8 → s3 x = s2 x := fun x y1 y2 y3 => by rw [← hs3, set_ne y3, set_ne y2, set_ne y1]
    obtain ⟨s', r1, r2, r3, r4, r5, r6, r7, r8, r9⟩ := ih s3 (d + 1) (p + 1) (by omega) hin.tail (by rw [← hs3, set_eq]) (by rw [← hs3, set_ne (by nee), set_ne (by nee), set_eq]) (by rw [← hs3, set_ne (by nee), set_eq])
      (by rw [v3 _ (by nee) (by nee) (by nee), w2 _ (by nee) (Ne.symm x1), h4]) (by rw [v3 _ (by nee) (by nee) (by nee), w2 _ (by nee) (Ne.symm x3), h5])
      (by rw [v3 _ (by nee) (by nee) (by nee), ← hs2, set_eq])
    refine ⟨s', ((hd.trans (hr.trans hz)).trans ht).trans r1, r2, r3, r4, ?_, r6, ?_, ?_, ?_⟩
    · rw [r5, add_succ_epd]
    · rw [r7, v3 _ (by nee) (by nee) (by nee), w2 _ (by nee) (Ne.symm x6)]
    · rw [r8, v3 _ (by nee) (by nee) (by nee), w2 _ (by nee) (Ne.symm x7)]
    · intro x hx
      rw [r9 x hx, movsd]
      refine movsd_congr n _ _ (S := repScr rend cpc ls) (fun y hy => ?_) (fun i hi => (hin.tail.2 i hi).2) x hx
      simp only [repScr, List.mem_cons, not_or, List.not_mem_nil, not_false_eq_true, and_true] at hy
      rw [v3 y hy.2.2.2.1 hy.2.2.2.2.2.2.2 hy.2.1, v2 y hy.2.2.2.2.1]

/-- The memory after copying `n` dwords. -/
def repRes (rend cpc ls cn fe n : Nat) (d p : W) (s : Mem) : Mem := fun x =>
  if x = ls + 4 then BitVec.ofNat 32 cpc else if x = ls + 8 then 0 else if x = rend + 4 then BitVec.ofNat 32 cn
  else if x = rend + 344 then d + BitVec.ofNat 32 n else if x = rend + 348 then 0 else if x = cpc + 4 then BitVec.ofNat 32 fe
  else if x = cpc + 344 then epd cpAddr else if x = cpAddr then s (cpc + 348) else movsd n d p s x

/-- The body as a statement.  The parameters are the destination of `read_end_common`, the current player and `copydwn` (mblockio.py:21). -/
def RepRel (L : Layout) (rend cpc ls cn fe : Nat) (s s' : Mem) : Prop :=
  s (cpc + 352) = pmod .set ∧ s (rend + 348) = 0 ∧
    RepIn L (repScr rend cpc ls ++ [cpc + 348, cpc + 352]) (s (ls + 8)).toNat (s (rend + 344)) (s cpAddr) ∧
    s' = repRes rend cpc ls cn fe (s (ls + 8)).toNat (s (rend + 344)) (s cpAddr) s

theorem RepIn.mono {L : Layout} {S S' : List Nat} {n : Nat} {d p : W} (h : RepIn L S n d p) (hs : ∀ x ∈ S', x ∈ S) : RepIn L S' n d p :=
  ⟨fun i hi => ⟨(h.1 i hi).1, (h.1 i hi).2.1, fun hx => (h.1 i hi).2.2 (hs _ hx)⟩, fun i hi => ⟨(h.2 i hi).1, fun hx => (h.2 i hi).2 (hs _ hx)⟩⟩

/-- **C36 (`f_repmovsd_epd`, code).** -/
theorem rep_code {L : Layout} (hw : L.Wf) {rend cpc t0 ls cn rd fe : Nat} (hk : RepOk L rend cpc t0 ls cn rd fe) (r b k : Nat) :
    Code L r b k (.prim (RepRel L rend cpc ls cn fe)) t0 fe := by
  refine .prim ?_
  rintro s s' ⟨hmd, h0, hin, rfl⟩
  obtain ⟨T, A, hT⟩ := hk.tab
  have nd := hk.nd
  simp only [repScr, List.cons_append, List.nil_append, List.nodup_cons, List.mem_cons, not_or, List.not_mem_nil, not_false_eq_true, List.nodup_nil, and_true, true_and] at nd
  obtain ⟨⟨-, a2, a3, a4, a5, a6, a7, a8, a9⟩, ⟨b2, b3, b4, b5, b6, b7, b8, b9⟩, ⟨-, -, c5, c6, c7, c8, c9⟩, ⟨-, d5, d6, d7, d8, d9⟩, ⟨e5, e6, e7, e8, e9⟩, ⟨-, f7, -, -⟩, ⟨g7, -, -⟩, ⟨h8, h9⟩, -⟩ := nd
  have ht := Layout.Runs.trig hw hk.b0 rfl rfl (s := s) trivial (fun _ => by
    refine ⟨fun h => (by cases h), hk.c4, fun h => (by cases h), hT.c4, fun h => (by cases h), hk.pv.dst, fun h => (by cases h), hk.pv.nxt, trivial⟩)
  have e1 : (⟨t0, ⟨[], [aMem (ls + 4) .set (BitVec.ofNat 32 rd), aMem (rend + 4) .set (BitVec.ofNat 32 cn), aMem (cpc + 344) .set (epd cpAddr), aMem (cpc + 4) .set (BitVec.ofNat 32 fe)].map PA.a⟩, some ls, false⟩ : SBlk).exec s =
      (((s.set (ls + 4) (BitVec.ofNat 32 rd)).set (rend + 4) (BitVec.ofNat 32 cn)).set (cpc + 344) (epd cpAddr)).set (cpc + 4) (BitVec.ofNat 32 fe) := by
    obtain ⟨f1, -⟩ := PlacedA.spec (L := L) (as := [aMem (ls + 4) .set (BitVec.ofNat 32 rd), aMem (rend + 4) .set (BitVec.ofNat 32 cn), aMem (cpc + 344) .set (epd cpAddr), aMem (cpc + 4) .set (BitVec.ofNat 32 fe)]) (x := t0 + 328) (s := s) ⟨aMem_static _ _ _, aMem_static _ _ _, aMem_static _ _ _, aMem_static _ _ _, trivial⟩
    simp only [SBlk.exec, condsS, if_true, f1]
    simp only [runPA, List.foldl, aMem_run, arith]
  rw [e1] at ht
  generalize hs1 : (((s.set (ls + 4) (BitVec.ofNat 32 rd)).set (rend + 4) (BitVec.ofNat 32 cn)).set (cpc + 344) (epd cpAddr)).set (cpc + 4) (BitVec.ofNat 32 fe) = s1 at ht
  have v1 : ∀ x, x ≠ ls + 4 → x ≠ rend + 4 → x ≠ cpc + 344 → x ≠ cpc + 4 → s1 x = s x := fun x y1 y2 y3 y4 => by rw [← hs1, set_ne y4, set_ne y3, set_ne y2, set_ne y1]
  have u4 : s1 (cpc + 4) = BitVec.ofNat 32 fe := by rw [← hs1, set_eq]
  have u344 : s1 (cpc + 344) = epd cpAddr := by rw [← hs1, set_ne (by nee), set_eq]
  have hin' := hin.mono (S' := repScr rend cpc ls) (fun x hx => List.mem_append_left _ hx)
  obtain ⟨s2, r1, r2, r3, r4, r5, r6, r7, r8, r9⟩ := rep_loop hw hk (s (ls + 8)).toNat s1 (s (rend + 344)) (s cpAddr) (s (ls + 8)).isLt hin'
    (by rw [v1 _ (by nee) (by nee) (by nee) (by nee), BitVec.ofNat_toNat, BitVec.setWidth_eq]) (v1 _ (by nee) (by nee) (by nee) (by nee)) (v1 _ (by nee) (by nee) (by nee) (by nee))
    (by rw [← hs1, set_ne (by nee), set_ne (by nee), set_ne (by nee), set_eq]) (by rw [← hs1, set_ne (by nee), set_ne (by nee), set_eq]) (by rw [v1 _ (by nee) (by nee) (by nee) (by nee), h0])
  have w1 : ∀ x, x ∉ repScr rend cpc ls → s2 x = movsd (s (ls + 8)).toNat (s (rend + 344)) (s cpAddr) s x := by
    intro x hx
    rw [r9 x hx]
    refine movsd_congr _ _ _ (S := repScr rend cpc ls) (fun y hy => ?_) (fun i hi => (hin'.2 i hi).2) x hx
    simp only [repScr, List.mem_cons, not_or] at hy
    exact v1 y hy.1 hy.2.2.1 hy.2.2.2.2.2.2.1 hy.2.2.2.2.2.1
  have n348 : cpc + 348 ∉ repScr rend cpc ls := by
    simp only [repScr, List.mem_cons, not_or, List.not_mem_nil, not_false_eq_true, and_true]
    refine ⟨?_, ?_, ?_, ?_, ?_, ?_, ?_, ?_⟩ <;> nee
  have n352 : cpc + 352 ∉ repScr rend cpc ls := by
    simp only [repScr, List.mem_cons, not_or, List.not_mem_nil, not_false_eq_true, and_true]
    refine ⟨?_, ?_, ?_, ?_, ?_, ?_, ?_, ?_⟩ <;> nee
  have q348 : s2 (cpc + 348) = s (cpc + 348) := by
    rw [w1 _ n348]
    exact movsd_out _ _ _ _ _ (fun i hi e => (hin.1 i hi).2.2 (by rw [e]; simp))
  have q352 : s2 (cpc + 352) = pmod .set := by
    rw [w1 _ n352, ← hmd]
    exact movsd_out _ _ _ _ _ (fun i hi e => (hin.1 i hi).2.2 (by rw [e]; simp))
  have h3 := Layout.Runs.pvar (L := L) hk.pv (s := s2) q352 (d := cpAddr) (by rw [r8, u344]) epd_cp hT.cp
  rw [q348, set_ne (show cpc + 4 ≠ cpAddr by nee), r7, u4, BitVec.toNat_ofNat, Nat.mod_eq_of_lt hk.lt.2.2.2] at h3
  have e9 : s2.set cpAddr (s (cpc + 348)) = repRes rend cpc ls cn fe (s (ls + 8)).toNat (s (rend + 344)) (s cpAddr) s := by
    funext x
    unfold repRes
    rw [get_set]
    by_cases hx : x ∈ repScr rend cpc ls
    · simp only [repScr, List.mem_cons, List.not_mem_nil, or_false] at hx
      clear hin hin' w1 r9 v1
      rcases hx with h | h | h | h | h | h | h | h <;> subst h
      · rw [if_neg (by nee), if_pos rfl, r2]
      · rw [if_neg (by nee), if_neg (by nee), if_pos rfl, r3]
      · rw [if_neg (by nee), if_neg (by nee), if_neg (by nee), if_pos rfl, r4]
      · rw [if_neg (by nee), if_neg (by nee), if_neg (by nee), if_neg (by nee), if_pos rfl, r5]
      · rw [if_neg (by nee), if_neg (by nee), if_neg (by nee), if_neg (by nee), if_neg (by nee), if_pos rfl, r6]
      · rw [if_neg (by nee), if_neg (by nee), if_neg (by nee), if_neg (by nee), if_neg (by nee), if_neg (by nee), if_pos rfl, r7, u4]
      · rw [if_neg (by nee), if_neg (by nee), if_neg (by nee), if_neg (by nee), if_neg (by nee), if_neg (by nee), if_neg (by nee), if_pos rfl, r8, u344]
      · rw [if_pos rfl, if_neg (by nee), if_neg (by nee), if_neg (by nee), if_neg (by nee), if_neg (by nee), if_neg (by nee), if_neg (by nee), if_pos rfl]
    · have hx' := hx
      simp only [repScr, List.mem_cons, not_or, List.not_mem_nil, not_false_eq_true, and_true] at hx'
      obtain ⟨y1, y2, y3, y4, y5, y6, y7, y8⟩ := hx'
      rw [if_neg y8, if_neg y1, if_neg y2, if_neg y3, if_neg y4, if_neg y5, if_neg y6, if_neg y7, if_neg y8, w1 x hx]
  rw [← e9]
  exact (ht.trans r1).trans h3

/-- The parameters of `f_repmovsd_epd` (mblockio.py:20). -/
def repArgs (rend ls : Nat) (dst src cnt : Src) : List (Nat × Src) := [(rend + 344, dst), (cpAddr, src), (ls + 8, cnt)]

/-- **C36 (`f_repmovsd_epd`).** For all memory contents, any number of dwords and any (ordinary) source and destination, overlapping or not: a call copies the dwords one after the other upwards, puts back the cached
current player, leaves the readers ready for use and changes nothing else. -/
theorem C36_repmovsd {L : Layout} (hw : L.Wf) {rend cpc t0 ls cn rd fe nptr back : Nat} (hk : RepOk L rend cpc t0 ls cn rd fe) (hF : FuncEnd L fe nptr []) {dst src cnt : Src}
    (hc : CallOk L nptr [] (repArgs rend ls dst src cnt) (repScr rend cpc ls)) (hb : back < 2 ^ 32) {s : Mem} (hmd : s (cpc + 352) = pmod .set) (h0 : s (rend + 348) = 0)
    (hnp : nptr ≠ cpc + 348 ∧ nptr ≠ cpc + 352)
    (hin : RepIn L (nptr :: repScr rend cpc ls ++ [cpc + 348, cpc + 352]) (cnt.valM s).toNat (dst.valM s) (src.valM s)) :
    Does L (.prim (CallRel L fe nptr back (.prim (RepRel L rend cpc ls cn fe)) [] (repArgs rend ls dst src cnt))) s fun s' =>
      s' (rend + 348) = 0 ∧ s' cpAddr = s (cpc + 348) ∧ ∀ x, x ∉ nptr :: repScr rend cpc ls → s' x = movsd (cnt.valM s).toNat (dst.valM s) (src.valM s) s x := by
  have nd := hk.nd
  simp only [repScr, List.cons_append, List.nil_append, List.nodup_cons, List.mem_cons, not_or, List.not_mem_nil, not_false_eq_true, List.nodup_nil, and_true, true_and] at nd
  obtain ⟨⟨-, a2, a3, a4, a5, a6, a7, a8, a9⟩, ⟨b2, b3, b4, b5, b6, b7, b8, b9⟩, ⟨-, -, c5, c6, c7, c8, c9⟩, ⟨-, d5, d6, d7, d8, d9⟩, ⟨e5, e6, e7, e8, e9⟩, ⟨-, f7, -, -⟩, ⟨g7, -, -⟩, ⟨h8, h9⟩, -⟩ := nd
  obtain ⟨np1, np2⟩ := hnp
  have hin' := hin.mono (S' := repScr rend cpc ls ++ [cpc + 348, cpc + 352]) (fun x hx => List.mem_cons_of_mem _ hx)
  let D := (List.range (cnt.valM s).toNat).map fun i => epdAddr (dst.valM s + BitVec.ofNat 32 i)
  have hc' : CallOk L nptr [] (repArgs rend ls dst src cnt) (repScr rend cpc ls ++ D) :=
    { hc with
      sn := fun h => by
        rcases List.mem_append.1 h with h | h
        · exact hc.sn h
        · simp only [D, List.mem_map, List.mem_range] at h
          obtain ⟨i, hi, e⟩ := h
          exact (hin.1 i hi).2.2 (by rw [e]; simp)
      sr := fun r hr => by cases hr }
  have hnin : ∀ x, (x = rend + 348 ∨ x = cpc + 348 ∨ x = cpc + 352) → x ∉ nptr :: (([] : List (Nat × Nat)).map (fun r => r.1 + 344) ++ (repArgs rend ls dst src cnt).map Prod.fst) := by
    have hn := hc.sn
    simp only [repScr, List.mem_cons, not_or, List.not_mem_nil, not_false_eq_true, and_true] at hn
    intro x hx
    simp only [repArgs, List.map, List.nil_append, List.mem_cons, not_or, List.not_mem_nil, not_false_eq_true, and_true]
    rcases hx with rfl | rfl | rfl
    · exact ⟨Ne.symm hn.2.2.2.2.1, by nee, by nee, by nee⟩
    · exact ⟨Ne.symm np1, by nee, by nee, by nee⟩
    · exact ⟨Ne.symm np2, by nee, by nee, by nee⟩
  refine (C31_does hw hc' (fstart := t0) (back := back) ⟨⟨0, 0, rep_code hw hk fe 0 0⟩, hF⟩ hb (s := s)
    (Q := fun s2 => s2 (rend + 348) = 0 ∧ s2 cpAddr = s (cpc + 348) ∧ ∀ x, x ∉ nptr :: repScr rend cpc ls → s2 x = movsd (cnt.valM s).toNat (dst.valM s) (src.valM s) s x) ?_).mono ?_
  · intro s1 ha ho
    have p1 := ha _ (List.mem_cons_self ..)
    have p2 := ha _ (List.mem_cons_of_mem _ (List.mem_cons_self ..))
    have p3 := ha _ (List.mem_cons_of_mem _ (List.mem_cons_of_mem _ (List.mem_cons_self ..)))
    simp only at p1 p2 p3
    refine ⟨.nrm, _, .prim ⟨by rw [ho _ (hnin _ (.inr (.inr rfl))), hmd], by rw [ho _ (hnin _ (.inl rfl)), h0], by rw [p1, p2, p3]; exact hin', rfl⟩, .inl rfl, ⟨?_, ?_, ?_⟩, ?_⟩
    · unfold repRes
      rw [if_neg (by nee), if_neg (by nee), if_neg (by nee), if_neg (by nee), if_pos rfl]
    · unfold repRes
      rw [if_neg (by nee), if_neg (by nee), if_neg (by nee), if_neg (by nee), if_neg (by nee), if_neg (by nee), if_neg (by nee), if_pos rfl]
      exact ho _ (hnin _ (.inr (.inl rfl)))
    · intro x hx
      have hx' := hx
      simp only [repScr, List.mem_cons, not_or, List.not_mem_nil, not_false_eq_true, and_true] at hx'
      obtain ⟨y0, y1, y2, y3, y4, y5, y6, y7, y8⟩ := hx'
      unfold repRes
      rw [if_neg y1, if_neg y2, if_neg y3, if_neg y4, if_neg y5, if_neg y6, if_neg y7, if_neg y8, p1, p2, p3]
      refine movsd_congr _ _ _ (S := nptr :: repScr rend cpc ls) (fun y hy => ho y ?_) (fun i hi => ((hin.mono (S' := nptr :: repScr rend cpc ls) (fun z hz => List.mem_append_left _ hz)).2 i hi).2) x hx
      simp only [repScr, List.mem_cons, not_or, List.not_mem_nil, not_false_eq_true, and_true] at hy
      simp only [repArgs, List.map, List.nil_append, List.mem_cons, not_or, List.not_mem_nil, not_false_eq_true, and_true]
      exact ⟨hy.1, hy.2.2.2.2.1, hy.2.2.2.2.2.2.2.2, hy.2.2.1⟩
    · intro x hx
      simp only [List.mem_append, not_or] at hx
      obtain ⟨hx1, hx2⟩ := hx
      simp only [repScr, List.mem_cons, not_or, List.not_mem_nil, not_false_eq_true, and_true] at hx1
      obtain ⟨y1, y2, y3, y4, y5, y6, y7, y8⟩ := hx1
      unfold repRes
      rw [if_neg y1, if_neg y2, if_neg y3, if_neg y4, if_neg y5, if_neg y6, if_neg y7, if_neg y8, p1, p2, p3]
      refine movsd_out _ _ _ _ _ (fun i hi e => hx2 ?_)
      simp only [D, List.mem_map, List.mem_range]
      exact ⟨i, hi, e⟩
  · rintro s' ⟨⟨s2, ⟨q1, q2, q3⟩, -, ho⟩, -⟩
    simp only [List.map_nil, List.append_nil] at ho
    refine ⟨by rw [ho _ (by simp), q1], by rw [ho _ (by simp), q2], fun x hx => by rw [ho _ (by simp), q3 x hx]⟩

end Eud.SC
