import Verif.Lib.ByteBlock
/-
C37: `EUDByteStream` (memio/byterw.py:239-370): reading, writing, seeking and `copyto`, in any history with readers and writers.
-/

namespace Eud.SC

/-! ## `VProc` of two variables -/

/-- eudv.py:666-685 `VProc([a, b], [a.SetDest(d1), b.SetDest(d2)])`: the trigger. -/
def vproc2Acts (a b d1 d2 nxt : Nat) : List PA :=
  [(a + 344, epd d1), (b + 344, epd d2), (a + 4, BitVec.ofNat 32 b), (b + 4, BitVec.ofNat 32 nxt)].map fun r => aMem r.1 .set r.2

def vproc2Res (a b d1 d2 nxt : Nat) (s : Mem) : List (Nat × W) :=
  [(a + 344, epd d1), (b + 344, epd d2), (a + 4, BitVec.ofNat 32 b), (b + 4, BitVec.ofNat 32 nxt), (d1, s (a + 348)), (d2, s (b + 348))]

def VProc2Rel (a b d1 d2 nxt : Nat) (s s' : Mem) : Prop := s (a + 352) = pmod .set ∧ s (b + 352) = pmod .set ∧ s' = sets (vproc2Res a b d1 d2 nxt s) s

theorem vproc2_code {L : Layout} (hw : L.Wf) {a b d1 d2 nxt e : Nat} (ha : PVar L a) (hv : PVar L b) (hb : (⟨e, ⟨[], (vproc2Acts a b d1 d2 nxt).map PA.a⟩, some a, false⟩ : SBlk) ∈ L.P.blks)
    (lt : b < 2 ^ 32 ∧ nxt < 2 ^ 32) (c1 : L.cell d1 ∧ EpdOK d1) (c2 : L.cell d2 ∧ EpdOK d2) (nd : (pvDw a ++ pvDw b).Nodup) (n1 : d1 ∉ (a + 4) :: pvDw b) (n2 : d2 ≠ b + 4) (r bb k : Nat) :
    Code L r bb k (.prim (VProc2Rel a b d1 d2 nxt)) e nxt := by
  refine .prim ?_
  rintro s s' ⟨ma, mb, rfl⟩
  simp only [pvDw, List.cons_append, List.nil_append, List.nodup_cons, List.mem_cons, not_or, List.not_mem_nil, not_false_eq_true, List.nodup_nil, and_true] at nd n1
  have g0 := runs_acts hw hb ⟨aMem_static _ _ _, aMem_static _ _ _, aMem_static _ _ _, aMem_static _ _ _, trivial⟩ (s := s)
    ⟨fun h => (by cases h), ha.dst, fun h => (by cases h), hv.dst, fun h => (by cases h), ha.nxt, fun h => (by cases h), hv.nxt, trivial⟩
  rw [vproc2Acts, runPA_setL] at g0
  generalize hl : [(a + 344, epd d1), (b + 344, epd d2), (a + 4, BitVec.ofNat 32 b), (b + 4, BitVec.ofNat 32 nxt)] = l at g0
  have kl : l.map Prod.fst = [a + 344, b + 344, a + 4, b + 4] := by rw [← hl]; rfl
  have nl : (l.map Prod.fst).Nodup := by rw [kl]; simp only [List.nodup_cons, List.mem_cons, not_or, List.not_mem_nil, not_false_eq_true, List.nodup_nil, and_true]; grind
  have w1 : ∀ x w, (x, w) ∈ l → sets l s x = w := fun x w h => sets_at nl h
  have v1 : ∀ x, x ∉ [a + 344, b + 344, a + 4, b + 4] → sets l s x = s x := fun x h => sets_out (by rw [kl]; exact h)
  simp only [List.mem_cons, not_or, List.not_mem_nil, not_false_eq_true, and_true] at v1
  have e0 : sets (vproc2Res a b d1 d2 nxt s) s = ((sets l s).set d1 (s (a + 348))).set d2 (s (b + 348)) := by
    rw [vproc2Res, ← hl]; rfl
  rw [e0]
  have q1 : sets l s (a + 4) = BitVec.ofNat 32 b := w1 _ _ (by rw [← hl]; simp)
  have q2 : sets l s (b + 4) = BitVec.ofNat 32 nxt := w1 _ _ (by rw [← hl]; simp)
  have q3 : sets l s (a + 344) = epd d1 := w1 _ _ (by rw [← hl]; simp)
  have q4 : sets l s (b + 344) = epd d2 := w1 _ _ (by rw [← hl]; simp)
  have f : ∀ {x}, x < 2 ^ 32 → (BitVec.ofNat 32 x).toNat = x := fun h => by rw [BitVec.toNat_ofNat, Nat.mod_eq_of_lt h]
  have u1 : sets l s (a + 348) = s (a + 348) := v1 _ (by grind)
  have u2 : sets l s (b + 348) = s (b + 348) := v1 _ (by grind)
  have u3 : sets l s (a + 352) = pmod .set := (v1 _ (by grind)).trans ma
  have u4 : sets l s (b + 352) = pmod .set := (v1 _ (by grind)).trans mb
  generalize sets l s = s1 at *
  clear hl kl nl w1 v1 e0 hb
  have g1 := Layout.Runs.pvar (L := L) ha (s := s1) u3 (d := d1) q3 c1.2 c1.1
  rw [set_ne (show a + 4 ≠ d1 by grind), q1, f lt.1, u1] at g1
  have g2 := Layout.Runs.pvar (L := L) hv (s := s1.set d1 (s (a + 348))) (by rw [set_ne (by grind), u4]) (d := d2) (by rw [set_ne (by grind), q4]) c2.2 c2.1
  rw [set_ne (show b + 4 ≠ d2 by grind), set_ne (show b + 4 ≠ d1 by grind), q2, f lt.2, set_ne (show b + 348 ≠ d1 by grind), u2] at g2
  exact (g0.trans g1).trans g2

theorem vproc2_does {L : Layout} {a b d1 d2 nxt : Nat} (nd : (pvDw a ++ pvDw b).Nodup) (n1 : d1 ∉ [a + 4, a + 344, b + 4, b + 344]) (n2 : d2 ∉ [d1, a + 4, a + 344, b + 4, b + 344]) {s : Mem} (ma : s (a + 352) = pmod .set) (mb : s (b + 352) = pmod .set) :
    Does L (.prim (VProc2Rel a b d1 d2 nxt)) s fun s' => s' d1 = s (a + 348) ∧ s' d2 = s (b + 348) ∧ Only [d1, d2, a + 4, a + 344, b + 4, b + 344] s s' := by
  refine Does.prim ⟨ma, mb, rfl⟩ ?_
  simp only [pvDw, List.cons_append, List.nil_append, List.nodup_cons, List.mem_cons, not_or, List.not_mem_nil, not_false_eq_true, List.nodup_nil, and_true] at nd n1 n2
  have nl : ((vproc2Res a b d1 d2 nxt s).map Prod.fst).Nodup := by
    simp only [vproc2Res, List.map_cons, List.map_nil, List.nodup_cons, List.mem_cons, not_or, List.not_mem_nil, not_false_eq_true, List.nodup_nil, and_true]; grind
  refine ⟨sets_at nl (by simp [vproc2Res]), sets_at nl (by simp [vproc2Res]), (sets_only _ s).mono fun x hx => ?_⟩
  simp only [vproc2Res, List.map_cons, List.map_nil, List.mem_cons, List.not_mem_nil, or_false] at hx ⊢
  grind

/-! ## Streams -/

/-- byterw.py:242-244, 268-275, 294-370: the variables `_offset` and `_suboffset`; the method `readbyte` (result `fr`, next pointer at `rnp`, labels `r1`, `r2`); the method `writebyte` (parameter `v`, the trigger `wt`
whose second action is `write`, labels `w1`, `w2`); the method `seekoffset` (parameter `so`, label `sb`). -/
structure BStr where
  off : Nat
  sub : Nat
  fr : Nat
  rfs : Nat
  rfe : Nat
  rnp : Nat
  r1 : Nat
  r2 : Nat
  v : Nat
  wt : Nat
  wfs : Nat
  wfe : Nat
  wnp : Nat
  w1 : Nat
  w2 : Nat
  so : Nat
  sfs : Nat
  sfe : Nat
  snp : Nat
  sb : Nat

namespace BStr
variable (S : BStr)

/-- The dwords of a stream. -/
def own : List Nat :=
  [S.off + 4, S.off + 344, S.off + 348, S.off + 352, S.sub + 4, S.sub + 344, S.sub + 348, S.sub + 352, S.fr + 4, S.fr + 344, S.fr + 348, S.rnp, S.v + 4, S.v + 344, S.v + 348, S.v + 352, S.wt + 360, S.wt + 376, S.wt + 380, S.wnp,
    S.so + 348, S.snp]

/-- The stream is at the byte with address `p`. -/
def At (s : Mem) (p : Nat) : Prop := s (S.sub + 348) = BitVec.ofNat 32 (p % 4) ∧ epdAddr (s (S.off + 348)) = p / 4 * 4

/-- Its variables assign. -/
def Mds (s : Mem) : Prop := s (S.off + 352) = pmod .set ∧ s (S.sub + 352) = pmod .set ∧ s (S.v + 352) = pmod .set

/-- byterw.py:246-264 `seekepd(e)` -/
def seekEpd (e : Src) : Stmt := .asg [⟨S.off + 348, .set, e⟩, ⟨S.sub + 348, .set, .const 0⟩]

/-- byterw.py:266-271 `seekoffset` -/
def seekBody (L : Layout) (D : Div4) : Stmt := .seq (D.call L S.sb (S.off + 348) (S.sub + 348) (.var S.so)) (.trig [] [aMem (S.off + 348) .add (BitVec.ofNat 32 (2 ^ 32 - 0x58A364 / 4))])

/-- byterw.py:309-312: the bits of byte `i`. -/
def bits (ev i : Nat) : List (Nat × List (Nat × W)) := (List.range 8).map fun j => (j + 8 * i, [(ev + 348, pow2 j)])

/-- byterw.py:305-319: the case `i`, and what follows if the sub-offset is not `i`. -/
def rdCase (ev i : Nat) (rest : Stmt) : Stmt :=
  .ite .skip [cMem (S.sub + 348) .exactly (BitVec.ofNat 32 i)] (.seq (.seqs ((bits ev i).map (bitTrig 0))) (.trig [] [aMem (S.sub + 348) .add 1])) rest

def rdLast (ev : Nat) : Stmt := .seq (.seqs ((bits ev 3).map (bitTrig 0))) (.trig [] [aMem (S.off + 348) .add 1, aMem (S.sub + 348) .set 0])

/-- byterw.py:291-323 `readbyte`; `ev` is the variable `_ev[4]`. -/
def rdBody (L : Layout) (cpc ev : Nat) : Stmt :=
  .seq (vproc L S.off 0xFFFFFFFF S.r1 [aMem (S.off + 344) .set (epd cpAddr), aMem (ev + 348) .set 0])
    (.seq (S.rdCase ev 0 (S.rdCase ev 1 (S.rdCase ev 2 (S.rdLast ev)))) (.seq (cpBack L cpc S.r2) (retVar S.fr ev)))

/-- The parts of `writebyte` that are like those of a writer. -/
def W : BWr := ⟨S.wt + 32, S.sub + 348, S.v, S.w2, S.wfe, S.wnp, fun _ => 0⟩

/-- byterw.py:360-367 -/
def wrTail : Stmt := .seq (.trig [] [aMem (S.sub + 348) .add 1, aHole (S.wt + 360)]) (.trig [cMem (S.sub + 348) .atLeast 4] [aMem (S.off + 348) .add 1, aMem (S.sub + 348) .set 0])

/-- byterw.py:325-367 `writebyte` -/
def wrBody (L : Layout) : Stmt :=
  .seq (vproc L S.off 0xFFFFFFFF S.w1 [aMem (S.off + 344) .set (epd (S.wt + 376)), aMem (S.wt + 380) .set 0])
    (.seq (.prim (SwRel L (fun s => s (S.sub + 348)) (cases0 4 (bwCase L S.W)))) S.wrTail)

def read (L : Layout) (cpc ev n o : Nat) : Stmt := .prim (CallRel L S.rfe S.rnp n (S.rdBody L cpc ev) [(S.fr, o)] [])
def write (L : Layout) (n : Nat) (x : Src) : Stmt := .prim (CallRel L S.wfe S.wnp n (S.wrBody L) [] [(S.v + 348, x)])
def seek (L : Layout) (D : Div4) (n : Nat) (x : Src) : Stmt := .prim (CallRel L S.sfe S.snp n (S.seekBody L D) [] [(S.so + 348, x)])
/-- byterw.py:273-288 `copyto(T)`, for a stream -/
def copyTo (T : BStr) (n : Nat) : Stmt := .prim (VProc2Rel S.off S.sub (T.off + 348) (T.sub + 348) n)

/-- The methods are in place. -/
structure Ok (L : Layout) (cpc ev : Nat) (D : Div4) : Prop where
  cel : ∀ x ∈ S.own, L.cell x
  nd : S.own.Nodup
  pvs : PVar L S.off ∧ PVar L S.sub ∧ PVar L S.v
  so : S.so ∈ L.P.vars
  epd : EpdOK (S.off + 348) ∧ EpdOK (S.sub + 348) ∧ EpdOK (S.wt + 376) ∧ EpdOK (S.wt + 380)
  lab : S.sb < 2 ^ 32
  rf : FuncCode L S.rfs S.rfe S.rnp [S.fr] (S.rdBody L cpc ev)
  wf : FuncCode L S.wfs S.wfe S.wnp [] (S.wrBody L)
  sf : FuncCode L S.sfs S.sfe S.snp [] (S.seekBody L D)

end BStr

/-! ### The bodies of the methods -/

/-- Closes a goal that says that a list is part of a list. -/
macro "sublist_tac" : tactic => `(tactic| repeat (first | exact List.Sublist.slnil | apply List.Sublist.cons_cons | apply List.Sublist.cons))

theorem bits_sum (w : W) {ev i x : Nat} (hi : i < 4) : sumBitsC w x (BStr.bits ev i) = if x = ev + 348 then (w.extractLsb' (8 * i) 8).setWidth 32 else 0 := by
  by_cases h : x = ev + 348
  · rw [if_pos h, h]
    have key : ∀ l : List Nat, sumBitsC w (ev + 348) (l.map fun j => (j + 8 * i, [(ev + 348, pow2 j)])) = BitVec.ofNat 32 (bitsum (w >>> (8 * i)) l) := by
      intro l
      induction l with
      | nil => rfl
      | cons j l ih =>
        rw [List.map_cons, sumBitsC, ih]
        simp only [bitsum, List.map_cons, List.sum_cons, sumC, if_true, BitVec.getLsbD_ushiftRight, BitVec.ofNat_add, Nat.add_comm j]
        congr 1
        have e2 : BitVec.twoPow 32 j = BitVec.ofNat 32 (2 ^ j) := by
          apply BitVec.eq_of_toNat_eq
          rw [BitVec.toNat_twoPow, BitVec.toNat_ofNat]
        by_cases hb : w.getLsbD (8 * i + j) <;> simp [hb, pow2, e2]
    rw [BStr.bits, key, bitsum_range _ 8 (by omega)]
    apply BitVec.eq_of_toNat_eq
    rw [BitVec.toNat_ofNat, BitVec.toNat_setWidth, BitVec.extractLsb'_toNat, BitVec.toNat_ushiftRight]
  · rw [if_neg h]
    have key : ∀ l : List Nat, sumBitsC w x (l.map fun j => (j + 8 * i, [(ev + 348, pow2 j)])) = 0 := by
      intro l
      induction l with
      | nil => rfl
      | cons j l ih =>
        rw [List.map_cons, sumBitsC, ih]
        simp [sumC, Ne.symm h]
    exact key _

section
variable {L : Layout} {S : BStr} {cpc ev : Nat} {D : Div4}

/-- What the cases of `readbyte` do. -/
theorem BStr.cases_does (hS : S.Ok L cpc ev D) (ce : L.cell (ev + 348)) (ne : ev + 348 ∉ cpAddr :: S.own) (nc : cpAddr ∉ S.own) {s : Mem} {p : Nat} (hp : p < 2 ^ 32) (ha : S.At s p) (hc : epdAddr (s cpAddr) = p / 4 * 4) (h0 : s (ev + 348) = 0)
    (hpr : ¬ L.priv (p / 4 * 4)) (hne : p / 4 * 4 ≠ ev + 348) :
    Does L (S.rdCase ev 0 (S.rdCase ev 1 (S.rdCase ev 2 (S.rdLast ev)))) s fun s' => s' (ev + 348) = (byteAt s p).setWidth 32 ∧ S.At s' (nextB p) ∧ Only [ev + 348, S.off + 348, S.sub + 348] s s' := by
  have nd : [S.off + 348, S.sub + 348].Nodup := hS.nd.sublist (by unfold BStr.own; sublist_tac)
  have cS : L.cell (S.sub + 348) := hS.cel _ (by simp [BStr.own])
  have cO : L.cell (S.off + 348) := hS.cel _ (by simp [BStr.own])
  simp only [BStr.own, List.nodup_cons, List.mem_cons, not_or, List.not_mem_nil, not_false_eq_true, List.nodup_nil, and_true, or_false] at nd ne nc
  obtain ⟨a1, a2⟩ := ha
  have bit : ∀ i < 4, p % 4 = i → Does L (.seqs ((BStr.bits ev i).map (bitTrig 0))) s fun s' => s' (ev + 348) = (byteAt s p).setWidth 32 ∧ Only [ev + 348] s s' := by
    intro i hi hpi
    refine (bits_does (L := L) (u := 0) (s := s) (by rw [cpAt0, hc]; exact hpr) (BStr.bits ev i) ?_).mono ?_
    · intro t ht
      simp only [BStr.bits, List.mem_map, List.mem_range] at ht
      obtain ⟨j, hj, rfl⟩ := ht
      refine ⟨by omega, ?_⟩
      simp only [List.mem_singleton, forall_eq]
      exact ⟨ce, ne.1, by rw [cpAt0, hc]; exact Ne.symm hne⟩
    · intro s' h
      refine ⟨?_, fun x hx => ?_⟩
      · rw [h, bits_sum _ hi, if_pos rfl, h0, cpAt0, hc, byteAt, hpi]; simp
      · rw [h, bits_sum _ hi, if_neg (by simpa using hx)]; simp
  have low : ∀ i < 3, p % 4 = i → Does L (.seq (.seqs ((BStr.bits ev i).map (bitTrig 0))) (.trig [] [aMem (S.sub + 348) .add 1])) s fun s' =>
      s' (ev + 348) = (byteAt s p).setWidth 32 ∧ S.At s' (nextB p) ∧ Only [ev + 348, S.off + 348, S.sub + 348] s s' := by
    intro i hi hpi
    refine Does.seq ((bit i (by omega) hpi).mono ?_)
    rintro s1 ⟨e1, e2⟩
    refine Does.acts (actsOk_mem cS trivial) ?_
    simp only [runPA_cons, runPA_nil, aMem_run, arith]
    obtain ⟨-, n1, n2⟩ := nextB_low hp (by omega : p % 4 ≠ 3)
    refine ⟨by rw [set_ne (by grind), e1], ⟨?_, ?_⟩, (e2.mono (by simp)).set (by simp) _⟩
    · rw [set_eq, e2 _ (by simp; grind), a1, n2]
      apply BitVec.eq_of_toNat_eq
      rw [BitVec.toNat_add, BitVec.toNat_ofNat, BitVec.toNat_ofNat, show (1 : BitVec 32).toNat = 1 from rfl]; omega
    · rw [set_ne (by grind), e2 _ (by simp; grind), a2, n1]
  have last : p % 4 = 3 → Does L (S.rdLast ev) s fun s' => s' (ev + 348) = (byteAt s p).setWidth 32 ∧ S.At s' (nextB p) ∧ Only [ev + 348, S.off + 348, S.sub + 348] s s' := by
    intro hpi
    refine Does.seq ((bit 3 (by omega) hpi).mono ?_)
    rintro s1 ⟨e1, e2⟩
    refine Does.acts (actsOk_mem cO (actsOk_mem cS trivial)) ?_
    simp only [runPA_cons, runPA_nil, aMem_run, arith]
    obtain ⟨n1, n2⟩ := nextB_high hp hpi
    refine ⟨by rw [set_ne (by grind), set_ne (by grind), e1], ⟨?_, ?_⟩, ((e2.mono (by simp)).set (by simp) _).set (by simp) _⟩
    · rw [set_eq, n2]; rfl
    · rw [set_ne (by grind), set_eq, epdAddr_succ, e2 _ (by simp; grind), a2, n1]
  have one : ∀ i < 3, ∀ rest, (p % 4 ≠ i → Does L rest s fun s' => s' (ev + 348) = (byteAt s p).setWidth 32 ∧ S.At s' (nextB p) ∧ Only [ev + 348, S.off + 348, S.sub + 348] s s') →
      Does L (S.rdCase ev i rest) s fun s' => s' (ev + 348) = (byteAt s p).setWidth 32 ∧ S.At s' (nextB p) ∧ Only [ev + 348, S.off + 348, S.sub + 348] s s' := by
    intro i hi rest hr
    have eq : BitVec.ofNat 32 (p % 4) = BitVec.ofNat 32 i ↔ p % 4 = i := by
      rw [← BitVec.toNat_inj, BitVec.toNat_ofNat, BitVec.toNat_ofNat]; omega
    refine Does.ite0 ?_ (fun hh => ?_) (fun hh => ?_)
    · simp only [List.mem_singleton, forall_eq]; exact cMem_ok cS _ _ _
    · simp only [holdsAll_cons, holdsAll_nil, Bool.and_true, cMem_holds, compare, decide_eq_true_eq, a1, eq] at hh
      exact low i hi hh
    · simp only [holdsAll_cons, holdsAll_nil, Bool.and_true, cMem_holds, compare, decide_eq_false_iff_not, a1, eq] at hh
      exact hr hh
  exact one 0 (by omega) _ fun h0 => one 1 (by omega) _ fun h1 => one 2 (by omega) _ fun h2 => last (by omega)

/-- What `readbyte` changes besides the result. -/
def BStr.rdScr (S : BStr) (cpc ev : Nat) : List Nat := [cpc + 4, cpc + 344, cpAddr, ev + 348, S.off + 4, S.off + 344, S.off + 348, S.sub + 348, S.fr + 348]

/-- The body of `readbyte`. -/
theorem BStr.rdBody_wp (hS : S.Ok L cpc ev D) (hcp : L.cell cpAddr) (hv : PVar L cpc) (he : ev ∈ L.P.vars) (ce : L.cell (ev + 348))
    (nd : (cpAddr :: (ev + 348) :: (cpc + 4) :: (cpc + 344) :: (cpc + 348) :: (cpc + 352) :: S.own).Nodup) {s : Mem} {p : Nat} (hp : p < 2 ^ 32) (ha : S.At s p) (hm : S.Mds s) (hc : s (cpc + 352) = pmod .set)
    (hpr : ¬ L.priv (p / 4 * 4)) (hn : p / 4 * 4 ∉ S.rdScr cpc ev) :
    Wp L (S.rdBody L cpc ev) s fun o s' => (o = .nrm ∨ o = .ret) ∧ s' (S.fr + 348) = (byteAt s p).setWidth 32 ∧ S.At s' (nextB p) ∧ s' cpAddr = s (cpc + 348) ∧ Only (S.rdScr cpc ev) s s' := by
  have cf : L.cell (S.fr + 348) := hS.cel _ (by simp [BStr.own])
  have cO : L.cell (S.off + 348) := hS.cel _ (by simp [BStr.own])
  have ne : ev + 348 ∉ cpAddr :: S.own := by
    rw [List.mem_cons, not_or]
    rw [List.nodup_cons, List.nodup_cons] at nd
    exact ⟨fun e => nd.1 (by rw [e]; exact List.mem_cons_self), fun h => nd.2.1 (by simp [h])⟩
  have nc : cpAddr ∉ S.own := by
    rw [List.nodup_cons] at nd
    exact fun h => nd.1 (by simp [h])
  replace nd : [cpAddr, ev + 348, cpc + 4, cpc + 344, cpc + 348, cpc + 352, S.off + 4, S.off + 344, S.off + 348, S.off + 352, S.sub + 348, S.fr + 348].Nodup := nd.sublist (by sublist_tac)
  simp only [List.nodup_cons, List.mem_cons, not_or, List.not_mem_nil, not_false_eq_true, List.nodup_nil, and_true, or_false] at nd
  simp only [BStr.rdScr, List.mem_cons, not_or, List.not_mem_nil, not_false_eq_true, and_true] at hn
  refine Wp.seqN (vproc_full (acts := [aMem (S.off + 344) .set (epd cpAddr), aMem (ev + 348) .set 0]) (s := s) hS.pvs.1 (actsOk_mem hS.pvs.1.dst (actsOk_mem ce trivial)) (md := .set) (d := cpAddr) ?_ ?_ epdOK_cp hcp (by grind) ?_) <;>
    simp only [runPA_cons, runPA_nil, aMem_run, arith]
  · rw [set_ne (by grind), set_ne (by grind), hm.1]
  · rw [set_ne (by grind), set_eq]
  rw [set_ne (show S.off + 348 ≠ ev + 348 by grind), set_ne (show S.off + 348 ≠ S.off + 344 by omega)]
  generalize hs1 : (((s.set (S.off + 344) (epd cpAddr)).set (ev + 348) 0).set (S.off + 4) (BitVec.ofNat 32 S.r1)).set cpAddr (s (S.off + 348)) = s1
  have o1 : Only [S.off + 344, ev + 348, S.off + 4, cpAddr] s s1 := by rw [← hs1]; exact ((((Only.refl _ s).set (by simp) _).set (by simp) _).set (by simp) _).set (by simp) _
  have k1 : ∀ x, x ≠ S.off + 344 → x ≠ ev + 348 → x ≠ S.off + 4 → x ≠ cpAddr → s1 x = s x := fun x h1 h2 h3 h4 => o1 x (by simp only [List.mem_cons, not_or, List.not_mem_nil, not_false_eq_true, and_true]; exact ⟨h1, h2, h3, h4⟩)
  have z1 : s1 cpAddr = s (S.off + 348) := by rw [← hs1, set_eq]
  have z2 : s1 (ev + 348) = 0 := by rw [← hs1, set_ne (by grind), set_ne (by grind), set_eq]
  refine Wp.seqN ((BStr.cases_does hS ce ne nc hp (s := s1) ⟨by rw [k1 _ (by grind) (by grind) (by grind) (by grind), ha.1], by rw [k1 _ (by grind) (by grind) (by grind) (by grind), ha.2]⟩ (by rw [z1, ha.2]) z2 hpr hn.2.2.2.1).mono ?_)
  rintro s2 ⟨e1, e2, e3⟩
  have k2 : ∀ x, x ≠ ev + 348 → x ≠ S.off + 348 → x ≠ S.sub + 348 → s2 x = s1 x := fun x h1 h2 h3 => e3 x (by simp only [List.mem_cons, not_or, List.not_mem_nil, not_false_eq_true, and_true]; exact ⟨h1, h2, h3⟩)
  have ba : byteAt s1 p = byteAt s p := byteAt_congr (k1 _ (by grind) (by grind) (by grind) (by grind))
  refine Wp.seqN ((cpBack_does (n := S.r2) hv hcp (by simp only [List.mem_cons, List.not_mem_nil, or_false, not_or]; grind) (s := s2) ?_).mono ?_)
  · rw [k2 _ (by grind) (by grind) (by grind), k1 _ (by grind) (by grind) (by grind) (by grind), hc]
  rintro s3 ⟨f1, f2⟩
  have k3 : ∀ x, x ≠ cpc + 4 → x ≠ cpc + 344 → x ≠ cpAddr → s3 x = s2 x := fun x h1 h2 h3 => f2 x (by simp only [cpBackScr, List.mem_cons, not_or, List.not_mem_nil, not_false_eq_true, and_true]; exact ⟨h1, h2, h3⟩)
  refine Wp.seqN (Does.asg (by simpa using cf) (by simpa using he) (Wp.ret ⟨Or.inr rfl, ?_, ⟨?_, ?_⟩, ?_, ?_⟩)) <;> simp only [runAsg, arith, Src.valM]
  · rw [set_eq, k3 _ (by grind) (by grind) (by grind), e1, ba]
  · rw [set_ne (by grind), k3 _ (by grind) (by grind) (by grind), e2.1]
  · rw [set_ne (by grind), k3 _ (by grind) (by grind) (by grind), e2.2]
  · rw [set_ne (by grind), f1, k2 _ (by grind) (by grind) (by grind), k1 _ (by grind) (by grind) (by grind) (by grind)]
  · refine Only.set (Only.trans (o1.mono ?_) (Only.trans (e3.mono ?_) (f2.mono ?_))) (by simp [BStr.rdScr]) _ <;>
      (intro x hx; simp only [cpBackScr, BStr.rdScr, List.mem_cons, List.not_mem_nil, or_false] at hx ⊢; grind)

/-- What `writebyte` changes besides the byte. -/
def BStr.wrScr (S : BStr) : List Nat := [S.off + 4, S.off + 344, S.off + 348, S.sub + 348, S.v + 4, S.v + 344, S.wt + 360, S.wt + 376, S.wt + 380]

/-- The end of `writebyte`. -/
theorem BStr.wrTail_does (hS : S.Ok L cpc ev D) {s : Mem} {p : Nat} (hp : p < 2 ^ 32) (ha : S.At s p) (h2 : epdAddr (s (S.wt + 376)) = p / 4 * 4) (h3 : s (S.wt + 360) = byteMask 1 (p % 4)) (ho : EpdOK (p / 4 * 4))
    (hc : L.cell (p / 4 * 4)) (hn : p / 4 * 4 ∉ S.wrScr) :
    Does L S.wrTail s fun s' => s' (p / 4 * 4) = modify .set (s (p / 4 * 4)) (s (S.wt + 380)) (byteMask 1 (p % 4)) ∧ S.At s' (nextB p) ∧ Only [p / 4 * 4, S.sub + 348, S.off + 348] s s' := by
  have nd := hS.nd
  have cS : L.cell (S.sub + 348) := hS.cel _ (by simp [BStr.own])
  have cO : L.cell (S.off + 348) := hS.cel _ (by simp [BStr.own])
  replace nd : [S.off + 348, S.sub + 348, S.wt + 360, S.wt + 376, S.wt + 380].Nodup := nd.sublist (by unfold BStr.own; sublist_tac)
  simp only [List.nodup_cons, List.mem_cons, not_or, List.not_mem_nil, not_false_eq_true, List.nodup_nil, and_true, or_false] at nd
  simp only [BStr.wrScr, List.mem_cons, not_or, List.not_mem_nil, not_false_eq_true, and_true] at hn
  obtain ⟨a1, a2⟩ := ha
  generalize hs0 : s.set (S.sub + 348) (s (S.sub + 348) + 1) = s0
  have k0 : ∀ x, x ≠ S.sub + 348 → s0 x = s x := fun x hx => by rw [← hs0, set_ne hx]
  obtain ⟨r1, r2⟩ := aHole_spec (L := L) (p := S.wt + 360) (s := s0) (ps := []) (plain_of_ok (by rw [k0 _ (by grind), Nat.add_assoc, show 360 + 16 = 376 from rfl, h2]; exact ho))
    (by rw [k0 _ (by grind), Nat.add_assoc, show 360 + 16 = 376 from rfl, h2]; exact hc) trivial
  rw [k0 (S.wt + 360 + 16) (by grind), k0 (S.wt + 360 + 20) (by grind), Nat.add_assoc, show 360 + 16 = 376 from rfl, Nat.add_assoc, show 360 + 20 = 380 from rfl, h2, k0 (S.wt + 360) (by grind), h3, k0 _ (by grind)] at r1
  refine Does.seq (Does.acts (actsOk_mem cS (by rw [aMem_run, arith, hs0]; exact r2)) ?_)
  simp only [runPA_cons, runPA_nil, aMem_run, arith, hs0, r1]
  generalize modify .set (s (p / 4 * 4)) (s (S.wt + 380)) (byteMask 1 (p % 4)) = u
  generalize hs1 : s0.set (p / 4 * 4) u = s1
  have eA : s1 (p / 4 * 4) = u := by rw [← hs1, set_eq]
  have es : s1 (S.sub + 348) = BitVec.ofNat 32 (p % 4) + 1 := by rw [← hs1, set_ne (by grind), ← hs0, set_eq, a1]
  have eo : s1 (S.off + 348) = s (S.off + 348) := by rw [← hs1, set_ne (by grind), k0 _ (by grind)]
  have o1 : Only [p / 4 * 4, S.sub + 348, S.off + 348] s s1 := by rw [← hs1, ← hs0]; exact ((Only.refl _ s).set (by simp) _).set (by simp) _
  have et : (s1 (S.sub + 348)).toNat = p % 4 + 1 := by rw [es, BitVec.toNat_add, BitVec.toNat_ofNat, show (1 : BitVec 32).toNat = 1 from rfl]; omega
  refine Does.trig (by simp only [List.mem_singleton, forall_eq]; exact cMem_ok cS _ _ _) ?_ ?_ <;>
    simp only [holdsAll_cons, holdsAll_nil, Bool.and_true, cMem_holds, compare, decide_eq_true_eq, decide_eq_false_iff_not, BitVec.le_def, et, show (4 : BitVec 32).toNat = 4 from rfl] <;> intro hc4
  · have h : p % 4 = 3 := by omega
    obtain ⟨n1, n2⟩ := nextB_high hp h
    refine ⟨actsOk_mem cO (actsOk_mem cS trivial), ?_⟩
    simp only [runPA_cons, runPA_nil, aMem_run, arith]
    refine ⟨by rw [set_ne (by grind), set_ne (by grind), eA], ⟨?_, ?_⟩, (o1.set (by simp) _).set (by simp) _⟩
    · rw [set_eq, n2]; rfl
    · rw [set_ne (by grind), set_eq, eo, epdAddr_succ, a2, n1]
  · have h : p % 4 ≠ 3 := by omega
    obtain ⟨-, n1, n2⟩ := nextB_low hp h
    refine ⟨eA, ⟨?_, ?_⟩, o1⟩
    · rw [n2]
      apply BitVec.eq_of_toNat_eq
      rw [et, BitVec.toNat_ofNat]; omega
    · rw [eo, a2, n1]

/-- The body of `writebyte`. -/
theorem BStr.wrBody_does (hS : S.Ok L cpc ev D) {s : Mem} {p : Nat} (hp : p < 2 ^ 32) (ha : S.At s p) (hm : S.Mds s) (ho : EpdOK (p / 4 * 4)) (hc : L.cell (p / 4 * 4)) (hn : p / 4 * 4 ∉ S.wrScr) :
    Does L (S.wrBody L) s fun s' => s' (p / 4 * 4) = putByte s p ((s (S.v + 348)).setWidth 8) (p / 4 * 4) ∧ S.At s' (nextB p) ∧ Only ((p / 4 * 4) :: S.wrScr) s s' := by
  have nd : [S.off + 4, S.off + 344, S.off + 348, S.off + 352, S.sub + 348, S.v + 4, S.v + 344, S.v + 348, S.v + 352, S.wt + 360, S.wt + 376, S.wt + 380].Nodup := hS.nd.sublist (by unfold BStr.own; sublist_tac)
  have c := hS.cel
  have hW : BWrOk L S.W := by
    refine ⟨c _ (by simp [BStr.own, BStr.W]), c _ (by simp [BStr.own, BStr.W]), c _ (by simp [BStr.own, BStr.W]), c _ (by simp [BStr.own, BStr.W]), ?_⟩
    simp only [BStr.W, List.nodup_cons, List.mem_cons, not_or, List.not_mem_nil, not_false_eq_true, List.nodup_nil, and_true, or_false] at nd ⊢
    grind
  have hV : BWrVar L S.W := by
    refine ⟨hS.pvs.2.2, hS.epd.2.2.2, ?_⟩
    simp only [BStr.W, List.nodup_cons, List.mem_cons, not_or, List.not_mem_nil, not_false_eq_true, List.nodup_nil, and_true, or_false, forall_eq_or_imp, forall_eq] at nd ⊢
    grind
  have hn' := hn
  simp only [List.nodup_cons, List.mem_cons, not_or, List.not_mem_nil, not_false_eq_true, List.nodup_nil, and_true, or_false] at nd
  simp only [BStr.wrScr, List.mem_cons, not_or, List.not_mem_nil, not_false_eq_true, and_true] at hn
  refine Does.seq (vproc_full (acts := [aMem (S.off + 344) .set (epd (S.wt + 376)), aMem (S.wt + 380) .set 0]) (s := s) hS.pvs.1 (actsOk_mem hS.pvs.1.dst (actsOk_mem hW.c348 trivial)) (md := .set) (d := S.wt + 376) ?_ ?_ hS.epd.2.2.1 hW.c344 (by grind) ?_) <;>
    simp only [runPA_cons, runPA_nil, aMem_run, arith]
  · rw [set_ne (by grind), set_ne (by grind), hm.1]
  · rw [set_ne (by grind), set_eq]
  rw [set_ne (show S.off + 348 ≠ S.wt + 380 by grind), set_ne (show S.off + 348 ≠ S.off + 344 by omega)]
  generalize hs1 : (((s.set (S.off + 344) (epd (S.wt + 376))).set (S.wt + 380) 0).set (S.off + 4) (BitVec.ofNat 32 S.w1)).set (S.wt + 376) (s (S.off + 348)) = s1
  have o1 : Only [S.off + 344, S.wt + 380, S.off + 4, S.wt + 376] s s1 := by rw [← hs1]; exact ((((Only.refl _ s).set (by simp) _).set (by simp) _).set (by simp) _).set (by simp) _
  have k1 : ∀ x, x ≠ S.off + 344 → x ≠ S.wt + 380 → x ≠ S.off + 4 → x ≠ S.wt + 376 → s1 x = s x := fun x h1 h2 h3 h4 => o1 x (by simp only [List.mem_cons, not_or, List.not_mem_nil, not_false_eq_true, and_true]; exact ⟨h1, h2, h3, h4⟩)
  have z1 : s1 (S.wt + 376) = s (S.off + 348) := by rw [← hs1, set_eq]
  have z2 : s1 (S.wt + 380) = 0 := by rw [← hs1, set_ne (by grind), set_ne (by grind), set_eq]
  have hi : p % 4 < 4 := by omega
  have es : s1 (S.sub + 348) = BitVec.ofNat 32 (p % 4) := by rw [k1 _ (by grind) (by grind) (by grind) (by grind), ha.1]
  have et : (s1 (S.sub + 348)).toNat = p % 4 := by rw [es, BitVec.toNat_ofNat]; omega
  have hl : (cases0 4 (bwCase L S.W)).lookup (s1 (S.sub + 348)) = some (bwCase L S.W (p % 4)) := by
    rw [cases0_lookup (by omega), et, if_pos hi]
  refine Does.seq (Does.sw (fun h => by rw [hl] at h; cases h) (fun st h => ?_))
  rw [hl] at h
  obtain rfl := Option.some.inj h
  refine Wp.mono (bwCase_does hW hV hi (s := s1) (by show s1 (S.v + 352) = _; rw [k1 _ (by grind) (by grind) (by grind) (by grind), hm.2.2]) z2) ?_
  rintro o s2 ⟨rfl, e1, e2, e3⟩
  refine ⟨rfl, ?_⟩
  have e3' : Only [S.v + 4, S.v + 344, S.wt + 360, S.wt + 380] s1 s2 := e3
  have k2 : ∀ x, x ≠ S.v + 4 → x ≠ S.v + 344 → x ≠ S.wt + 360 → x ≠ S.wt + 380 → s2 x = s1 x := fun x h1 h2 h3 h4 => e3' x (by simp only [List.mem_cons, not_or, List.not_mem_nil, not_false_eq_true, and_true]; exact ⟨h1, h2, h3, h4⟩)
  have e1' : s2 (S.wt + 360) = byteMask 1 (p % 4) := e1
  have e2' : s2 (S.wt + 380) = s1 (S.v + 348) <<< (8 * (p % 4)) ∨ s2 (S.wt + 380) = ((s1 (S.v + 348)).setWidth 8).setWidth 32 <<< (8 * (p % 4)) := e2
  refine (BStr.wrTail_does hS hp (s := s2) ⟨?_, ?_⟩ ?_ e1' ho hc hn').mono ?_
  · rw [k2 _ (by grind) (by grind) (by grind) (by grind), es]
  · rw [k2 _ (by grind) (by grind) (by grind) (by grind), k1 _ (by grind) (by grind) (by grind) (by grind), ha.2]
  · rw [k2 _ (by grind) (by grind) (by grind) (by grind), z1, ha.2]
  · rintro s3 ⟨g1, g2, g3⟩
    refine ⟨?_, g2, Only.trans (o1.mono ?_) (Only.trans (e3'.mono ?_) (g3.mono ?_))⟩
    · rw [g1, modify_byte e2', k2 _ (by grind) (by grind) (by grind) (by grind), k1 _ (by grind) (by grind) (by grind) (by grind), putByte, set_eq, k1 (S.v + 348) (by grind) (by grind) (by grind) (by grind)]
    all_goals (intro x hx; simp only [BStr.wrScr, List.mem_cons, List.not_mem_nil, or_false] at hx ⊢; grind)

/-- The body of `seekoffset`. -/
theorem BStr.seekBody_does (hw : L.Wf) (hD : Div4Ok L D) (hS : S.Ok L cpc ev D) (hO : CallOk L D.np [(D.q, S.off + 348), (D.a, S.sub + 348)] [(D.a + 348, .var S.so)] [D.a + 348, D.q + 348]) (s : Mem) :
    Does L (S.seekBody L D) s fun s' => S.At s' (s (S.so + 348)).toNat ∧ Only ([S.off + 348, S.sub + 348] ++ D.own) s s' := by
  refine Does.seq ((D.does hw hD hS.lab hO s).mono ?_)
  rintro s1 ⟨g1, g2, g3⟩
  simp only [show Src.valM s (.var S.so) = s (S.so + 348) from rfl] at g1 g2
  have hlt := (s (S.so + 348)).isLt
  generalize (s (S.so + 348)).toNat = p at g1 g2 hlt ⊢
  refine Does.acts (actsOk_mem (hS.cel _ (by simp [BStr.own])) trivial) ?_
  simp only [runPA_cons, runPA_nil, aMem_run, arith]
  refine ⟨⟨?_, ?_⟩, Only.set (g3.mono ?_) (by simp) _⟩
  · rw [set_ne (fun e => (List.nodup_cons.1 (List.Nodup.sublist (show [S.off + 348, S.sub + 348].Sublist _ by unfold BStr.own; sublist_tac) hS.nd)).1 (by rw [← e]; simp))]
    apply BitVec.eq_of_toNat_eq
    rw [g2, BitVec.toNat_ofNat]; omega
  · rw [set_eq, epdAddr_ofQ g1 (by omega)]; omega
  · intro x hx; simp only [List.mem_cons, List.mem_append, List.not_mem_nil, or_false] at hx ⊢; grind

end

/-! ## Histories -/

/-- Readers, writers and streams; `ev` is the variable `_ev[4]`. -/
structure SCfg where
  G : BCfg
  ev : Nat
  ns : Nat
  S : Nat → BStr

namespace SCfg
variable (C : SCfg)

/-- Dwords of the streams. -/
def SInt (x : Nat) : Prop := x = C.ev + 348 ∨ ∃ i < C.ns, x ∈ (C.S i).own
/-- Dwords of the objects: the user must leave them alone. -/
def Int (x : Nat) : Prop := C.G.Int x ∨ C.SInt x

structure Ok (L : Layout) (C : SCfg) (br : Nat → Nat) : Prop where
  G : C.G.Ok L br
  ev : C.ev ∈ L.P.vars ∧ ¬ C.G.Int (C.ev + 348)
  S : ∀ i < C.ns, (C.S i).Ok L C.G.cpc C.ev C.G.D
  sG : ∀ i < C.ns, ∀ x ∈ (C.S i).own, ¬ C.G.Int x ∧ x ≠ C.ev + 348
  sS : ∀ i < C.ns, ∀ j < C.ns, i ≠ j → ∀ x ∈ (C.S i).own, x ∉ (C.S j).own
end SCfg

/-- The positions of the readers, writers and streams, and the memory of the user. -/
structure SSt extends BSt where
  sp : Nat → Nat

/-- What the user does. -/
inductive StOp where
  /-- an operation of a reader or writer, or an assignment -/
  | base (op : BOp)
  /-- `streams[i].readbyte(ret=o)` -/
  | read (i o : Nat)
  /-- `streams[i].writebyte(x)` -/
  | write (i : Nat) (x : Src)
  /-- `streams[i].seekoffset(x)` -/
  | seek (i : Nat) (x : Src)
  /-- `streams[i].seekepd(e)` -/
  | seekE (i : Nat) (e : Src)
  /-- `streams[i].copyto(streams[j])` -/
  | copy (i j : Nat)

/-- What it means. -/
def StOp.spec : StOp → SSt → SSt
  | base op, σ => ⟨op.spec σ.toBSt, σ.sp⟩
  | read i o, σ => ⟨⟨σ.rp, σ.wp, σ.m.set o ((byteAt σ.m (σ.sp i)).setWidth 32)⟩, upd σ.sp i (nextB (σ.sp i))⟩
  | write i x, σ => ⟨⟨σ.rp, σ.wp, putByte σ.m (σ.sp i) ((x.valM σ.m).setWidth 8)⟩, upd σ.sp i (nextB (σ.sp i))⟩
  | seek i x, σ => ⟨σ.toBSt, upd σ.sp i (x.valM σ.m).toNat⟩
  | seekE i e, σ => ⟨σ.toBSt, upd σ.sp i (epdAddr (e.valM σ.m))⟩
  | copy i j, σ => ⟨σ.toBSt, upd σ.sp j (σ.sp i)⟩

/-- The statement of an operation that goes on at `n`. -/
def StOp.stmt (L : Layout) (C : SCfg) (n : Nat) : StOp → Stmt
  | base op => op.stmt L C.G n
  | read i o => (C.S i).read L C.G.cpc C.ev n o
  | write i x => (C.S i).write L n x
  | seek i x => (C.S i).seek L C.G.D n x
  | seekE i e => (C.S i).seekEpd e
  | copy i j => (C.S i).copyTo (C.S j) n

/-- The dword of a source. -/
def Src.uses : Src → List Nat
  | .const _ => []
  | .var v => [v + 348]

/-- The dwords of the user that an operation reads or writes. -/
def BOp.uses : BOp → BSt → List Nat
  | asg a _ x, _ => a :: x.uses
  | read i o, σ => [o, σ.rp i / 4 * 4]
  | writeV i x, σ => (σ.wp i / 4 * 4) :: x.uses
  | writeC i _, σ => [σ.wp i / 4 * 4]
  | rseekC _ _, _ => []
  | rseekV _ x, _ => x.uses
  | rseekE _ e _, _ => e.uses
  | wseekC _ _, _ => []
  | wseekV _ x, _ => x.uses
  | wseekE _ e k, _ => e.uses ++ k.uses

/-- A source of the user. -/
def SrcS (L : Layout) (C : SCfg) (x : Src) : Prop := ∀ v, x = .var v → v ∈ L.P.vars ∧ ¬ C.Int (v + 348)

/-- When an operation may be used. -/
def StOp.Ok (L : Layout) (C : SCfg) : StOp → SSt → Prop
  | base op, σ => op.Ok L C.G σ.toBSt ∧ ∀ x ∈ op.uses σ.toBSt, ¬ C.SInt x
  | read i o, σ => i < C.ns ∧ L.cell o ∧ EpdOK o ∧ ¬ C.Int o ∧ ¬ L.priv (σ.sp i / 4 * 4) ∧ ¬ C.Int (σ.sp i / 4 * 4)
  | write i x, σ => i < C.ns ∧ SrcS L C x ∧ EpdOK (σ.sp i / 4 * 4) ∧ L.cell (σ.sp i / 4 * 4) ∧ ¬ C.Int (σ.sp i / 4 * 4)
  | seek i x, _ => i < C.ns ∧ SrcS L C x
  | seekE i e, _ => i < C.ns ∧ SrcS L C e
  | copy i j, _ => i < C.ns ∧ j < C.ns

/-- The machine is in the state `σ`, with the current player `cp`. -/
structure SRep (C : SCfg) (cp : W) (σ : SSt) (s : Mem) : Prop where
  b : BRep C.G cp ⟨σ.rp, σ.wp, s⟩ s
  st : ∀ i < C.ns, (C.S i).At s (σ.sp i) ∧ σ.sp i < 2 ^ 32 ∧ (C.S i).Mds s
  vis : ∀ x, ¬ C.Int x → s x = σ.m x

theorem Src.valM_congr {x : Src} {m m' : Mem} (h : ∀ y ∈ x.uses, m' y = m y) : x.valM m' = x.valM m := by
  cases x with
  | const c => rfl
  | var v => exact h _ (by simp [Src.uses])

/-- Operations look only at what they use. -/
theorem BOp.spec_congr {rp wp : Nat → Nat} {m m' : Mem} (op : BOp) (h : ∀ x ∈ op.uses ⟨rp, wp, m⟩, m' x = m x) :
    (op.spec ⟨rp, wp, m'⟩).rp = (op.spec ⟨rp, wp, m⟩).rp ∧ (op.spec ⟨rp, wp, m'⟩).wp = (op.spec ⟨rp, wp, m⟩).wp ∧ ∀ x, m' x = m x → (op.spec ⟨rp, wp, m'⟩).m x = (op.spec ⟨rp, wp, m⟩).m x := by
  cases op with
  | asg a md x =>
    simp only [BOp.uses, List.mem_cons, forall_eq_or_imp] at h
    refine ⟨rfl, rfl, fun y hy => ?_⟩
    simp only [BOp.spec, get_set, h.1, Src.valM_congr h.2, hy]
  | read i o =>
    simp only [BOp.uses, List.mem_cons, forall_eq_or_imp, List.not_mem_nil, or_false, forall_eq] at h
    refine ⟨rfl, rfl, fun y hy => ?_⟩
    simp only [BOp.spec, get_set, byteAt_congr h.2, hy]
  | writeV i x =>
    simp only [BOp.uses, List.mem_cons, forall_eq_or_imp] at h
    refine ⟨rfl, rfl, fun y hy => ?_⟩
    simp only [BOp.spec, putByte, get_set, h.1, Src.valM_congr h.2, hy]
  | writeC i b =>
    simp only [BOp.uses, List.mem_singleton, forall_eq] at h
    refine ⟨rfl, rfl, fun y hy => ?_⟩
    simp only [BOp.spec, putByte, get_set, h, hy]
  | rseekC i p => exact ⟨rfl, rfl, fun y hy => hy⟩
  | rseekV i x => exact ⟨by simp only [BOp.spec, Src.valM_congr h], rfl, fun y hy => hy⟩
  | rseekE i e k => exact ⟨by simp only [BOp.spec, Src.valM_congr h], rfl, fun y hy => hy⟩
  | wseekC i p => exact ⟨rfl, rfl, fun y hy => hy⟩
  | wseekV i x => exact ⟨rfl, by simp only [BOp.spec, Src.valM_congr h], fun y hy => hy⟩
  | wseekE i e k =>
    simp only [BOp.uses, List.mem_append] at h
    exact ⟨rfl, by simp only [BOp.spec, Src.valM_congr fun y hy => h y (.inl hy), Src.valM_congr fun y hy => h y (.inr hy)], fun y hy => hy⟩

theorem BOp.Ok_congr {L : Layout} {G : BCfg} {rp wp : Nat → Nat} {m m' : Mem} (op : BOp) (h : ∀ x ∈ op.uses ⟨rp, wp, m⟩, m' x = m x) (hk : op.Ok L G ⟨rp, wp, m⟩) : op.Ok L G ⟨rp, wp, m'⟩ := by
  cases op with
  | wseekE i e k =>
    simp only [BOp.uses, List.mem_append] at h
    obtain ⟨h1, h2, h3, h4⟩ := hk
    exact ⟨h1, h2, h3, by rw [Src.valM_congr fun y hy => h y (.inr hy)]; exact h4⟩
  | _ => exact hk

/-- Operations change only what they use. -/
theorem BOp.spec_out {rp wp : Nat → Nat} {m : Mem} (op : BOp) {x : Nat} (h : x ∉ op.uses ⟨rp, wp, m⟩) : (op.spec ⟨rp, wp, m⟩).m x = m x := by
  cases op with
  | asg a md y => exact set_ne fun e => h (by simp [BOp.uses, e])
  | read i o => exact set_ne fun e => h (by simp [BOp.uses, e])
  | writeV i y => exact set_ne fun e => h (by simp [BOp.uses, e])
  | writeC i b => exact set_ne fun e => h (by simp [BOp.uses, e])
  | _ => rfl

/-- What is used belongs to the user. -/
theorem BOp.uses_int {L : Layout} {G : BCfg} {σ : BSt} (op : BOp) (hk : op.Ok L G σ) : ∀ x ∈ op.uses σ, ¬ G.Int x := by
  have hs : ∀ {x : Src}, SrcB L G x → ∀ y ∈ x.uses, ¬ G.Int y := by
    intro x hx y hy
    cases x with
    | const c => simp [Src.uses] at hy
    | var v =>
      simp only [Src.uses, List.mem_singleton] at hy
      rw [hy]; exact (hx v rfl).2
  cases op with
  | asg a md x =>
    obtain ⟨-, h1, h2⟩ := hk
    simp only [BOp.uses, List.mem_cons, forall_eq_or_imp]
    exact ⟨h1, hs h2⟩
  | read i o =>
    obtain ⟨-, -, -, h1, -, h2⟩ := hk
    simp only [BOp.uses, List.mem_cons, forall_eq_or_imp, List.not_mem_nil, or_false, forall_eq]
    exact ⟨h1, h2⟩
  | writeV i x =>
    obtain ⟨-, h1, -, -, h2⟩ := hk
    simp only [BOp.uses, List.mem_cons, forall_eq_or_imp]
    exact ⟨h2, hs h1⟩
  | writeC i b =>
    obtain ⟨-, -, -, h2⟩ := hk
    simp only [BOp.uses, List.mem_singleton, forall_eq]
    exact h2
  | rseekC i p => simp [BOp.uses]
  | rseekV i x => exact hs hk.2
  | rseekE i e k => exact hs hk.2.1
  | wseekC i p => simp [BOp.uses]
  | wseekV i x => exact hs hk.2
  | wseekE i e k =>
    intro x hx
    rcases List.mem_append.1 hx with h | h
    · exact hs hk.2.1 x h
    · exact hs hk.2.2.1 x h

namespace SHist
variable {L : Layout} {C : SCfg} {br : Nat → Nat} {cp : W} {σ : SSt} {s s' : Mem}

theorem sint {i : Nat} (h : i < C.ns) {x : Nat} (hx : x ∈ (C.S i).own) : C.Int x := .inr (.inr ⟨i, h, hx⟩)

/-- An operation of a reader or writer. -/
theorem base_step (hC : C.Ok L br) (h : SRep C cp σ s) {n : Nat} (hn : n < 2 ^ 32) {op : BOp} (hk : (StOp.base op).Ok L C σ) :
    Does L ((StOp.base op).stmt L C n) s (SRep C cp ((StOp.base op).spec σ)) := by
  obtain ⟨h1, h2⟩ := hk
  have hu := op.uses_int h1
  have hs : ∀ x ∈ op.uses σ.toBSt, s x = σ.m x := fun x hx => h.vis x fun hi => hi.elim (hu x hx) (h2 x hx)
  obtain ⟨c1, c2, c3⟩ := op.spec_congr (rp := σ.rp) (wp := σ.wp) (m := σ.m) (m' := s) hs
  have hu' : op.uses ⟨σ.rp, σ.wp, s⟩ = op.uses σ.toBSt := by cases op <;> rfl
  refine (C37_step hC.G h.b hn op (op.Ok_congr (m := σ.m) hs h1)).mono fun s' h' => ?_
  have keep : ∀ x, C.SInt x → ¬ C.G.Int x → s' x = s x := fun x hx hg => by
    rw [h'.vis x hg]
    exact op.spec_out fun hm => h2 x (by rw [← hu']; exact hm) hx
  refine ⟨?_, fun i hi => ?_, fun x hx => ?_⟩
  · have := h'.here
    rw [c1, c2] at this
    exact this
  · obtain ⟨⟨a1, a2⟩, a3, a4, a5, a6⟩ := h.st i hi
    have e : ∀ x ∈ (C.S i).own, s' x = s x := fun x hx => keep x (.inr ⟨i, hi, hx⟩) (hC.sG i hi x hx).1
    simp only [StOp.spec]
    exact ⟨⟨by rw [e _ (by simp [BStr.own]), a1], by rw [e _ (by simp [BStr.own]), a2]⟩, a3, by rw [e _ (by simp [BStr.own]), a4], by rw [e _ (by simp [BStr.own]), a5], by rw [e _ (by simp [BStr.own]), a6]⟩
  · have hg : ¬ C.G.Int x := fun hg => hx (.inl hg)
    rw [h'.vis x hg]
    exact c3 x (h.vis x hx)

/-- What the streams use of the shared dwords. -/
def com (C : SCfg) : List Nat := [C.G.cpc + 4, C.G.cpc + 344] ++ C.G.D.own

theorem com_spec (hG : C.G.Ok L br) : (∀ x ∈ com C, x ∈ C.G.own .com) ∧ C.G.cpc + 352 ∉ com C ∧ C.G.rend + 348 ∉ com C ∧ cpAddr ∉ com C ∧ C.G.cpc + 348 ∉ com C := by
  have nc := hG.nd .com trivial
  simp only [com, BCfg.own, Div4.own, List.nodup_cons, List.cons_append, List.nil_append, List.mem_cons, not_or, List.not_mem_nil, not_false_eq_true, List.nodup_nil, and_true, or_false] at nc ⊢
  grind

/-- An operation of streams. -/
theorem step (hC : C.Ok L br) (h : SRep C cp σ s) (T : Nat → Prop) {l : List Nat} {sp : Nat → Nat} {m : Mem} (ho : Only l s s')
    (hl : ∀ x ∈ l, x ∈ com C ∨ x = C.ev + 348 ∨ (∃ i < C.ns, T i ∧ x ∈ (C.S i).own) ∨ ¬ C.Int x)
    (hT : ∀ i < C.ns, T i → (C.S i).At s' (sp i) ∧ sp i < 2 ^ 32 ∧ (C.S i).Mds s') (hN : ∀ i < C.ns, ¬ T i → sp i = σ.sp i) (hv : ∀ x, ¬ C.Int x → s' x = m x) :
    SRep C cp ⟨⟨σ.rp, σ.wp, m⟩, sp⟩ s' := by
  obtain ⟨c0, c1, c2, c3, c4⟩ := com_spec hC.G
  have hg : ∀ x, C.G.Int x → x ∉ com C → s' x = s x := fun x hx hn => ho x fun hm => by
    rcases hl x hm with h1 | rfl | ⟨i, hi, -, h1⟩ | h1
    · exact hn h1
    · exact hC.ev.2 hx
    · exact (hC.sG i hi x h1).1 hx
    · exact h1 (.inl hx)
  have I : ∀ x ∈ C.G.own .com, C.G.Int x := fun x hx => BHist.int (b := .com) trivial hx
  refine ⟨?_, fun i hi => ?_, hv⟩
  · refine BHist.step h.b (fun b => b = .com) (fun b hb ht x hx => hg x (BHist.int hb hx) fun hm => ?_) ?_ (by intros; rfl) ?_ (by intros; rfl) ?_ (by intros; rfl)
    · exact hC.G.sep b .com hb trivial ht x hx (c0 x hm)
    · rintro i - hi; cases hi
    · rintro i - hi; cases hi
    · intro _
      obtain ⟨b1, b2, b3, b4⟩ := h.b.com
      exact ⟨by rw [hg _ (I _ (by simp [BCfg.own])) c1, b1], by rw [hg _ (I _ (by simp [BCfg.own])) c2, b2], by rw [hg _ (I _ (by simp [BCfg.own])) c3, b3], by rw [hg _ (I _ (by simp [BCfg.own])) c4, b4]⟩
  · by_cases ht : T i
    · exact hT i hi ht
    · have e : ∀ x ∈ (C.S i).own, s' x = s x := fun x hx => ho x fun hm => by
        rcases hl x hm with h1 | rfl | ⟨j, hj, h2, h1⟩ | h1
        · exact (hC.sG i hi x hx).1 (I _ (c0 x h1))
        · exact (hC.sG i hi _ hx).2 rfl
        · exact hC.sS i hi j hj (fun e => ht (e ▸ h2)) x hx h1
        · exact h1 (sint hi hx)
      obtain ⟨⟨a1, a2⟩, a3, a4, a5, a6⟩ := h.st i hi
      simp only
      rw [hN i hi ht]
      exact ⟨⟨by rw [e _ (by simp [BStr.own]), a1], by rw [e _ (by simp [BStr.own]), a2]⟩, a3, by rw [e _ (by simp [BStr.own]), a4], by rw [e _ (by simp [BStr.own]), a5], by rw [e _ (by simp [BStr.own]), a6]⟩

theorem val (h : SRep C cp σ s) {x : Src} (hx : SrcS L C x) : x.valM s = x.valM σ.m := by
  cases x with
  | const c => rfl
  | var v => exact h.vis _ (hx v rfl).2

/-- A call of a method with one argument. -/
theorem callOk1 {np a : Nat} {x : Src} {scr : List Nat} (hx : ∀ v, x = .var v → v ∈ L.P.vars ∧ v + 348 ≠ np ∧ v + 348 ≠ a) (cn : L.cell np) (ca : L.cell a) (ne : np ≠ a) (hs : np ∉ scr) : CallOk L np [] [(a, x)] scr where
  cn := cn
  cr := by simp
  ca := by simp only [List.mem_singleton, forall_eq]; exact ⟨ca, fun v hv => (hx v hv).1⟩
  na := by simp
  nr := by simp
  nd := by simp
  aa := by simp only [List.mem_singleton, forall_eq]; exact fun v hv e => (hx v hv).2.2 e
  an := by simp only [List.mem_singleton, forall_eq]; exact fun v hv => ⟨fun e => (hx v hv).2.1 e, by simp⟩
  pn := by simp only [List.mem_singleton, forall_eq]; exact ⟨ne, by simp⟩
  rn := by simp
  rr := by simp
  sn := hs
  sr := by simp
  hnp := by simp

theorem src_ne {x : Src} (hx : SrcS L C x) {i : Nat} (hi : i < C.ns) {a b : Nat} (ha : a ∈ (C.S i).own) (hb : b ∈ (C.S i).own) : ∀ v, x = .var v → v ∈ L.P.vars ∧ v + 348 ≠ a ∧ v + 348 ≠ b :=
  fun v hv => ⟨(hx v hv).1, fun e => (hx v hv).2 (e ▸ sint hi ha), fun e => (hx v hv).2 (e ▸ sint hi hb)⟩

theorem mds (hs : ∀ x ∈ [(C.S i).off + 352, (C.S i).sub + 352, (C.S i).v + 352], s' x = s x) (h : (C.S i).Mds s) : (C.S i).Mds s' :=
  ⟨by rw [hs _ (by simp), h.1], by rw [hs _ (by simp), h.2.1], by rw [hs _ (by simp), h.2.2]⟩

theorem read_step (hC : C.Ok L br) (h : SRep C cp σ s) {i o n : Nat} (hn : n < 2 ^ 32) (hk : (StOp.read i o).Ok L C σ) : Does L ((StOp.read i o).stmt L C n) s (SRep C cp ((StOp.read i o).spec σ)) := by
  obtain ⟨hi, co, eo, io, pp, ip⟩ := hk
  obtain ⟨a1, a2, a3⟩ := h.st i hi
  obtain ⟨b1, b2, b3, b4⟩ := h.b.com
  have hS := hC.S i hi
  have c := hS.cel
  have I : ∀ x ∈ C.G.own .com, C.G.Int x := fun x hx => BHist.int (b := .com) trivial hx
  have nS : ∀ x ∈ C.G.own .com, x ∉ (C.S i).own := fun x hx hm => (hC.sG i hi x hm).1 (I x hx)
  have nE : ∀ x ∈ C.G.own .com, x ≠ C.ev + 348 := fun x hx e => hC.ev.2 (e ▸ I x hx)
  have nc := hC.G.nd .com trivial
  have nd : (cpAddr :: (C.ev + 348) :: (C.G.cpc + 4) :: (C.G.cpc + 344) :: (C.G.cpc + 348) :: (C.G.cpc + 352) :: (C.S i).own).Nodup := by
    have e1 : ∀ x ∈ [cpAddr, C.G.cpc + 4, C.G.cpc + 344, C.G.cpc + 348, C.G.cpc + 352], x ∈ C.G.own .com := by simp [BCfg.own]
    replace nc : [C.G.cpc + 4, C.G.cpc + 344, C.G.cpc + 348, C.G.cpc + 352, cpAddr].Nodup := nc.sublist (by unfold BCfg.own; sublist_tac)
    have ne : C.ev + 348 ∉ (C.S i).own := fun hm => (hC.sG i hi _ hm).2 rfl
    simp only [List.mem_cons, List.not_mem_nil, or_false, forall_eq_or_imp, forall_eq] at e1
    have f := fun x hx => nS x hx
    have g := fun x hx => nE x hx
    simp only [List.nodup_cons, List.mem_cons, not_or, List.not_mem_nil, not_false_eq_true, List.nodup_nil, and_true, or_false] at nc ⊢
    refine ⟨⟨g _ e1.1, by grind, by grind, by grind, by grind, f _ e1.1⟩, ⟨Ne.symm (g _ e1.2.1), Ne.symm (g _ e1.2.2.1), Ne.symm (g _ e1.2.2.2.1), Ne.symm (g _ e1.2.2.2.2), ne⟩,
      ⟨by grind, by grind, by grind, f _ e1.2.1⟩, ⟨by grind, by grind, f _ e1.2.2.1⟩, ⟨by grind, f _ e1.2.2.2.1⟩, f _ e1.2.2.2.2, hS.nd⟩
  have mS : ∀ x ∈ [(C.S i).off + 4, (C.S i).off + 344, (C.S i).off + 348, (C.S i).sub + 348, (C.S i).fr + 348], x ∈ (C.S i).own := by simp [BStr.own]
  have ns : ∀ x ∈ (C.S i).own, x ∉ [(C.S i).off + 4, (C.S i).off + 344, (C.S i).off + 348, (C.S i).sub + 348, (C.S i).fr + 348] → x ∉ (C.S i).rdScr C.G.cpc C.ev := by
    intro x hx h1 h2
    simp only [BStr.rdScr, List.mem_cons, List.not_mem_nil, or_false] at h2
    rcases h2 with rfl | rfl | rfl | rfl | h2
    · exact nS _ (by simp [BCfg.own]) hx
    · exact nS _ (by simp [BCfg.own]) hx
    · exact nS _ (by simp [BCfg.own]) hx
    · exact (hC.sG i hi _ hx).2 rfl
    · exact h1 (by simpa using h2)
  have cls : ∀ x ∈ (C.S i).rdScr C.G.cpc C.ev, x = cpAddr ∨ x ∈ com C ∨ x = C.ev + 348 ∨ x ∈ (C.S i).own := by
    intro x hx
    simp only [BStr.rdScr, List.mem_cons, List.not_mem_nil, or_false] at hx
    rcases hx with rfl | rfl | rfl | rfl | hx
    · exact .inr (.inl (by simp [com]))
    · exact .inr (.inl (by simp [com]))
    · exact .inl rfl
    · exact .inr (.inr (.inl rfl))
    · exact .inr (.inr (.inr (mS x (by simpa using hx))))
  have scI : ∀ x ∈ (C.S i).rdScr C.G.cpc C.ev, C.Int x := by
    intro x hx
    rcases cls x hx with rfl | h1 | rfl | h1
    · exact .inl (I _ (by simp [BCfg.own]))
    · exact .inl (I _ ((com_spec hC.G).1 x h1))
    · exact .inr (.inl rfl)
    · exact sint hi h1
  have ndS : [(C.S i).off + 4, (C.S i).off + 344, (C.S i).off + 348, (C.S i).off + 352, (C.S i).sub + 348, (C.S i).sub + 352, (C.S i).fr + 4, (C.S i).fr + 344, (C.S i).fr + 348, (C.S i).rnp, (C.S i).v + 352].Nodup := hS.nd.sublist (by unfold BStr.own; sublist_tac)
  simp only [List.nodup_cons, List.mem_cons, not_or, List.not_mem_nil, not_false_eq_true, List.nodup_nil, and_true, or_false] at ndS
  have hO : CallOk L (C.S i).rnp [((C.S i).fr, o)] [] ((C.S i).rdScr C.G.cpc C.ev) := by
    refine callOk1R (c _ (by simp [BStr.own])) (c _ (by simp [BStr.own])) co eo (by simp) ?_ (by grind) (by simp) ?_ ?_ ?_
    · simp only [List.map_nil, List.nodup_cons, List.mem_cons, not_or, List.not_mem_nil, not_false_eq_true, List.nodup_nil, and_true, or_false]; grind
    · simp only [List.mem_cons, List.not_mem_nil, or_false, not_or]
      exact ⟨fun e => io (e ▸ sint hi (by simp [BStr.own])), fun e => io (e ▸ sint hi (by simp [BStr.own])), fun e => io (e ▸ sint hi (by simp [BStr.own]))⟩
    · exact ns _ (by simp [BStr.own]) (by simp only [List.mem_cons, List.not_mem_nil, or_false, not_or]; grind)
    · exact ns _ (by simp [BStr.own]) (by simp only [List.mem_cons, List.not_mem_nil, or_false, not_or]; grind)
  refine (C31_does hC.G.wf hO hS.rf hn (s := s) (Q := fun s2 => s2 ((C.S i).fr + 348) = (byteAt s (σ.sp i)).setWidth 32 ∧ (C.S i).At s2 (nextB (σ.sp i)) ∧ s2 cpAddr = cp) ?_).mono ?_
  · intro s1 e1 e2
    simp only [List.map_cons, List.map_nil, List.append_nil, List.cons_append, List.nil_append] at e2
    have k : ∀ x, x ≠ (C.S i).rnp → x ≠ (C.S i).fr + 344 → s1 x = s x := fun x h1 h2 => e2 x (by simp only [List.mem_cons, List.not_mem_nil, or_false, not_or]; exact ⟨h1, h2⟩)
    have kc : ∀ x ∈ C.G.own .com, s1 x = s x := fun x hx => k x (fun e => nS x hx (by rw [e]; simp [BStr.own])) (fun e => nS x hx (by rw [e]; simp [BStr.own]))
    refine (BStr.rdBody_wp hS (hC.G.cel _ (I _ (by simp [BCfg.own]))) hC.G.pc hC.ev.1 (cell_val hC.G.wf hC.ev.1) nd a2 (s := s1) ⟨by rw [k _ (by grind) (by grind), a1.1], by rw [k _ (by grind) (by grind), a1.2]⟩
      ⟨by rw [k _ (by grind) (by grind), a3.1], by rw [k _ (by grind) (by grind), a3.2.1], by rw [k _ (by grind) (by grind), a3.2.2]⟩ (by rw [kc _ (by simp [BCfg.own]), b1]) pp (fun hm => ip (scI _ hm))).mono ?_
    rintro o' s2 ⟨q1, q2, q3, q4, q5⟩
    refine ⟨q1, ⟨?_, q3, by rw [q4, kc _ (by simp [BCfg.own]), b4]⟩, q5⟩
    rw [q2, byteAt_congr (k _ (fun e => ip (e ▸ sint hi (by simp [BStr.own]))) (fun e => ip (e ▸ sint hi (by simp [BStr.own]))))]
  · rintro s' ⟨⟨s2, ⟨q1, q2, q3⟩, q4, q5⟩, q6⟩
    simp only [List.mem_singleton, forall_eq, List.map_cons, List.map_nil, List.cons_append, List.nil_append] at q4 q5
    have k : ∀ x ∈ (C.S i).own, x ≠ (C.S i).fr + 4 → s' x = s2 x := fun x hx h1 => q5 x (by simp only [List.mem_cons, List.not_mem_nil, or_false, not_or]; exact ⟨fun e => io (e ▸ sint hi hx), h1⟩)
    have hcp : s' cpAddr = s cpAddr := by
      rw [q5 _ (by simp only [List.mem_cons, List.not_mem_nil, or_false, not_or]; exact ⟨fun e => io (e ▸ .inl (I _ (by simp [BCfg.own]))), fun e => nS cpAddr (by simp [BCfg.own]) (by rw [e]; simp [BStr.own])⟩), q3, b3]
    simp only [callOnly, List.map_cons, List.map_nil, List.cons_append, List.nil_append, List.append_nil] at q6
    have q7 : Only (o :: (com C ++ (C.ev + 348) :: [(C.S i).rnp, (C.S i).fr + 4, (C.S i).fr + 344, (C.S i).off + 4, (C.S i).off + 344, (C.S i).off + 348, (C.S i).sub + 348, (C.S i).fr + 348])) s s' := by
      intro x hx
      by_cases hc : x = cpAddr
      · rw [hc, hcp]
      · refine q6 x fun hm => hx ?_
        simp only [com, BStr.rdScr, List.cons_append, List.nil_append, List.mem_cons, List.mem_append, List.not_mem_nil, or_false] at hm ⊢
        grind
    refine step hC h (fun j => j = i) q7 ?_ ?_ ?_ ?_
    · intro x hx
      rcases List.mem_cons.1 hx with rfl | hx
      · exact .inr (.inr (.inr io))
      · rcases List.mem_append.1 hx with hx | hx
        · exact .inl hx
        · rcases List.mem_cons.1 hx with rfl | hx
          · exact .inr (.inl rfl)
          · refine .inr (.inr (.inl ⟨i, hi, rfl, ?_⟩))
            simp only [BStr.own, List.mem_cons, List.not_mem_nil, or_false] at hx ⊢
            grind
    · rintro j - rfl
      rw [BHist.upd_self]
      refine ⟨⟨by rw [k _ (by simp [BStr.own]) (by grind), q2.1], by rw [k _ (by simp [BStr.own]) (by grind), q2.2]⟩, nextB_lt _, mds ?_ a3⟩
      have n2 : ∀ x ∈ (C.S j).own, x ∉ [(C.S j).rnp, (C.S j).fr + 4, (C.S j).fr + 344, (C.S j).off + 4, (C.S j).off + 344, (C.S j).off + 348, (C.S j).sub + 348, (C.S j).fr + 348] → s' x = s x := by
        intro x hx h1
        refine q7 x fun hm => ?_
        rcases List.mem_cons.1 hm with rfl | hm
        · exact io (sint hi hx)
        · rcases List.mem_append.1 hm with hm | hm
          · exact nS x ((com_spec hC.G).1 x hm) hx
          · rcases List.mem_cons.1 hm with rfl | hm
            · exact (hC.sG j hi _ hx).2 rfl
            · exact h1 hm
      intro x hx
      simp only [List.mem_cons, List.not_mem_nil, or_false] at hx n2
      rcases hx with rfl | rfl | rfl <;> exact n2 _ (by simp [BStr.own]) (by grind)
    · rintro j - hj
      exact BHist.upd_ne hj
    · intro x hx
      simp only [get_set]
      by_cases hxo : x = o
      · rw [if_pos hxo, hxo, q4, q1, byteAt_congr (h.vis _ ip)]
      · rw [if_neg hxo, q7 x ?_, h.vis x hx]
        rw [List.mem_cons, List.mem_append, List.mem_cons, not_or, not_or, not_or]
        refine ⟨hxo, fun hm => hx (.inl (I _ ((com_spec hC.G).1 x hm))), fun e => hx (.inr (.inl e)), fun hm => hx (sint hi ?_)⟩
        simp only [BStr.own, List.mem_cons, List.not_mem_nil, or_false] at hm ⊢
        grind

/-- Streams whose changed dwords are known. -/
theorem keep {i : Nat} (hC : C.Ok L br) (hi : i < C.ns) {u k : List Nat} (hu : ∀ x ∈ u, ¬ C.Int x) (ho : Only (u ++ (com C ++ k)) s s') : ∀ x ∈ (C.S i).own, x ∉ k → s' x = s x := by
  intro x hx h1
  refine ho x fun hm => ?_
  rcases List.mem_append.1 hm with hm | hm
  · exact hu x hm (sint hi hx)
  · rcases List.mem_append.1 hm with hm | hm
    · exact (hC.sG i hi x hx).1 (BHist.int (b := .com) trivial ((com_spec hC.G).1 x hm))
    · exact h1 hm

theorem write_step (hC : C.Ok L br) (h : SRep C cp σ s) {i n : Nat} {x : Src} (hn : n < 2 ^ 32) (hk : (StOp.write i x).Ok L C σ) : Does L ((StOp.write i x).stmt L C n) s (SRep C cp ((StOp.write i x).spec σ)) := by
  obtain ⟨hi, hx, eo, co, io⟩ := hk
  obtain ⟨a1, a2, a3⟩ := h.st i hi
  have hS := hC.S i hi
  have c := hS.cel
  have ndS : [(C.S i).off + 4, (C.S i).off + 344, (C.S i).off + 348, (C.S i).off + 352, (C.S i).sub + 348, (C.S i).sub + 352, (C.S i).v + 4, (C.S i).v + 344, (C.S i).v + 348, (C.S i).v + 352, (C.S i).wt + 360, (C.S i).wt + 376, (C.S i).wt + 380,
      (C.S i).wnp].Nodup := hS.nd.sublist (by unfold BStr.own; sublist_tac)
  simp only [List.nodup_cons, List.mem_cons, not_or, List.not_mem_nil, not_false_eq_true, List.nodup_nil, and_true, or_false] at ndS
  have scO : ∀ x ∈ (C.S i).wnp :: ((C.S i).v + 348) :: (C.S i).wrScr, x ∈ (C.S i).own := by
    intro x hx
    simp only [BStr.wrScr, BStr.own, List.mem_cons, List.not_mem_nil, or_false] at hx ⊢
    grind
  have nA : ∀ x ∈ (C.S i).own, σ.sp i / 4 * 4 ≠ x := fun x hx e => io (e ▸ sint hi hx)
  have hO : CallOk L (C.S i).wnp [] [((C.S i).v + 348, x)] ((σ.sp i / 4 * 4) :: (C.S i).wrScr) := by
    refine callOk1 (src_ne hx hi (by simp [BStr.own]) (by simp [BStr.own])) (c _ (by simp [BStr.own])) (c _ (by simp [BStr.own])) (by grind) ?_
    rw [List.mem_cons, not_or]
    refine ⟨Ne.symm (nA _ (by simp [BStr.own])), ?_⟩
    simp only [BStr.wrScr, List.mem_cons, List.not_mem_nil, or_false, not_or]; grind
  refine (C31_does hC.G.wf hO hS.wf hn (s := s) (Q := fun s2 => s2 (σ.sp i / 4 * 4) = putByte s (σ.sp i) ((x.valM s).setWidth 8) (σ.sp i / 4 * 4) ∧ (C.S i).At s2 (nextB (σ.sp i))) ?_).mono ?_
  · intro s1 e1 e2
    simp only [List.mem_singleton, forall_eq, List.map_cons, List.map_nil, List.nil_append] at e1 e2
    have k : ∀ x, x ≠ (C.S i).wnp → x ≠ (C.S i).v + 348 → s1 x = s x := fun x h1 h2 => e2 x (by simp only [List.mem_cons, List.not_mem_nil, or_false, not_or]; exact ⟨h1, h2⟩)
    refine (Does.wp (BStr.wrBody_does hS a2 (s := s1) ⟨by rw [k _ (by grind) (by grind), a1.1], by rw [k _ (by grind) (by grind), a1.2]⟩
      ⟨by rw [k _ (by grind) (by grind), a3.1], by rw [k _ (by grind) (by grind), a3.2.1], by rw [k _ (by grind) (by grind), a3.2.2]⟩ eo co (fun hm => io (sint hi (scO _ (by simp [hm])))))).mono ?_
    rintro o s2 ⟨rfl, q1, q2, q3⟩
    refine ⟨.inl rfl, ⟨?_, q2⟩, q3⟩
    rw [q1, e1, putByte, putByte, set_eq, set_eq, k _ (nA _ (by simp [BStr.own])) (nA _ (by simp [BStr.own]))]
  · rintro s' ⟨⟨s2, ⟨q1, q2⟩, -, q5⟩, q6⟩
    have e : s' = s2 := funext fun y => q5 y (by simp)
    subst e
    simp only [callOnly, List.map_cons, List.map_nil, List.cons_append, List.nil_append] at q6
    have q7 : Only ([σ.sp i / 4 * 4] ++ (com C ++ ((C.S i).wnp :: ((C.S i).v + 348) :: (C.S i).wrScr))) s s' := q6.mono (by
      intro y hy
      simp only [List.mem_append, List.mem_cons, List.not_mem_nil, or_false] at hy ⊢
      grind)
    refine step hC h (fun j => j = i) q7 ?_ ?_ ?_ ?_
    · intro y hy
      rcases List.mem_append.1 hy with hy | hy
      · rw [List.mem_singleton.1 hy]; exact .inr (.inr (.inr io))
      · rcases List.mem_append.1 hy with hy | hy
        · exact .inl hy
        · exact .inr (.inr (.inl ⟨i, hi, rfl, scO y hy⟩))
    · rintro j - rfl
      rw [BHist.upd_self]
      refine ⟨q2, nextB_lt _, mds ?_ a3⟩
      intro y hy
      simp only [List.mem_cons, List.not_mem_nil, or_false] at hy
      have kp := keep hC hi (by simpa using io) q7
      simp only [BStr.wrScr, List.mem_cons, List.not_mem_nil, or_false, not_or] at kp
      rcases hy with rfl | rfl | rfl <;> exact kp _ (by simp [BStr.own]) (by grind)
    · rintro j - hj
      exact BHist.upd_ne hj
    · intro y hy
      by_cases hxo : y = σ.sp i / 4 * 4
      · rw [hxo, q1, val h hx]
        simp only [putByte, set_eq, h.vis _ io]
      · rw [putByte_ne hxo, q7 y ?_, h.vis y hy]
        rw [List.mem_append, List.mem_append, not_or, not_or]
        exact ⟨by simpa using hxo, fun hm => hy (.inl (BHist.int (b := .com) trivial ((com_spec hC.G).1 y hm))), fun hm => hy (sint hi (scO y hm))⟩

/-- Operations that only move a stream. -/
theorem move_step (hC : C.Ok L br) (h : SRep C cp σ s) {i p : Nat} (hi : i < C.ns) (hp : p < 2 ^ 32) {k : List Nat} (hk : ∀ x ∈ k, x ∈ (C.S i).own) (hm : ∀ x ∈ [(C.S i).off + 352, (C.S i).sub + 352, (C.S i).v + 352], x ∉ k)
    (ho : Only (com C ++ k) s s') (ha : (C.S i).At s' p) : SRep C cp ⟨σ.toBSt, upd σ.sp i p⟩ s' := by
  refine step hC h (fun j => j = i) ho (fun x hx => ?_) ?_ ?_ ?_
  · rcases List.mem_append.1 hx with hx | hx
    · exact .inl hx
    · exact .inr (.inr (.inl ⟨i, hi, rfl, hk x hx⟩))
  · rintro j - rfl
    rw [BHist.upd_self]
    exact ⟨ha, hp, mds (fun x hx => keep (u := []) hC hi (by simp) ho x (by simp only [BStr.own, List.mem_cons, List.not_mem_nil, or_false] at hx ⊢; grind) (hm x hx)) (h.st j hi).2.2⟩
  · rintro j - hj
    exact BHist.upd_ne hj
  · intro x hx
    rw [ho x fun hm => ?_, h.vis x hx]
    rcases List.mem_append.1 hm with hm | hm
    · exact hx (.inl (BHist.int (b := .com) trivial ((com_spec hC.G).1 x hm)))
    · exact hx (sint hi (hk x hm))

theorem seek_step (hC : C.Ok L br) (h : SRep C cp σ s) {i n : Nat} {x : Src} (hn : n < 2 ^ 32) (hk : (StOp.seek i x).Ok L C σ) : Does L ((StOp.seek i x).stmt L C n) s (SRep C cp ((StOp.seek i x).spec σ)) := by
  obtain ⟨hi, hx⟩ := hk
  have hS := hC.S i hi
  have c := hS.cel
  obtain ⟨d1, d2, d3, -⟩ := BHist.divOwn hC.G
  have nD : ∀ x ∈ (C.S i).own, x ∉ C.G.D.own := fun x hx hm => (hC.sG i hi x hx).1 (BHist.int (b := .com) trivial (d3 x hm))
  have ndS : [(C.S i).off + 348, (C.S i).off + 352, (C.S i).sub + 348, (C.S i).sub + 352, (C.S i).v + 352, (C.S i).so + 348, (C.S i).snp].Nodup := hS.nd.sublist (by unfold BStr.own; sublist_tac)
  simp only [List.nodup_cons, List.mem_cons, not_or, List.not_mem_nil, not_false_eq_true, List.nodup_nil, and_true, or_false] at ndS
  have hO : CallOk L (C.S i).snp [] [((C.S i).so + 348, x)] ([(C.S i).off + 348, (C.S i).sub + 348] ++ C.G.D.own) := by
    refine callOk1 (src_ne hx hi (by simp [BStr.own]) (by simp [BStr.own])) (c _ (by simp [BStr.own])) (c _ (by simp [BStr.own])) (by grind) ?_
    rw [List.mem_append, not_or]
    exact ⟨by simp only [List.mem_cons, List.not_mem_nil, or_false, not_or]; grind, nD _ (by simp [BStr.own])⟩
  have hd := BHist.divOk (L := L) (off := (C.S i).so) d1 (nD ((C.S i).off + 348) (by simp [BStr.own])) (nD ((C.S i).sub + 348) (by simp [BStr.own])) (nD ((C.S i).so + 348) (by simp [BStr.own])) (by grind) d2 (c _ (by simp [BStr.own])) (c _ (by simp [BStr.own])) hS.epd.1 hS.epd.2.1 hS.so
  refine (C31_does hC.G.wf hO hS.sf hn (s := s) (Q := fun s2 => (C.S i).At s2 (x.valM s).toNat) ?_).mono ?_
  · intro s1 e1 e2
    simp only [List.mem_singleton, forall_eq] at e1
    refine (Does.wp (BStr.seekBody_does hC.G.wf hC.G.div hS hd s1)).mono ?_
    rintro o s2 ⟨rfl, q1, q2⟩
    rw [e1] at q1
    exact ⟨.inl rfl, q1, q2⟩
  · rintro s' ⟨⟨s2, q1, -, q5⟩, q6⟩
    have e : s' = s2 := funext fun y => q5 y (by simp)
    subst e
    rw [val h hx] at q1
    refine move_step hC h hi (BitVec.isLt _) (k := [(C.S i).snp, (C.S i).so + 348, (C.S i).off + 348, (C.S i).sub + 348]) ?_ ?_ (q6.mono ?_) q1
    · intro y hy
      simp only [BStr.own, List.mem_cons, List.not_mem_nil, or_false] at hy ⊢
      grind
    · intro y hy
      simp only [List.mem_cons, List.not_mem_nil, or_false, not_or] at hy ⊢
      grind
    · intro y hy
      simp only [callOnly, com, List.map_cons, List.map_nil, List.cons_append, List.nil_append, List.mem_append, List.mem_cons, List.not_mem_nil, or_false] at hy ⊢
      grind

theorem seekE_step (hC : C.Ok L br) (h : SRep C cp σ s) {i n : Nat} {e : Src} (hk : (StOp.seekE i e).Ok L C σ) : Does L ((StOp.seekE i e).stmt L C n) s (SRep C cp ((StOp.seekE i e).spec σ)) := by
  obtain ⟨hi, hx⟩ := hk
  have hS := hC.S i hi
  have c := hS.cel
  have ndS : [(C.S i).off + 348, (C.S i).off + 352, (C.S i).sub + 348, (C.S i).sub + 352, (C.S i).v + 352].Nodup := hS.nd.sublist (by unfold BStr.own; sublist_tac)
  simp only [List.nodup_cons, List.mem_cons, not_or, List.not_mem_nil, not_false_eq_true, List.nodup_nil, and_true, or_false] at ndS
  refine Does.asg ?_ ?_ ?_
  · simp only [List.mem_cons, List.not_mem_nil, or_false, forall_eq_or_imp, forall_eq]
    exact ⟨c _ (by simp [BStr.own]), c _ (by simp [BStr.own])⟩
  · simp only [List.mem_cons, List.not_mem_nil, or_false, forall_eq_or_imp, forall_eq]
    exact ⟨fun v hv => (hx v hv).1, by simp⟩
  · simp only [runAsg, arith, show Src.valM _ (.const (0 : BitVec 32)) = 0 from rfl]
    have := epdAddr_mod (e.valM s)
    have hl := epdAddr_lt (e.valM σ.m)
    refine move_step hC h hi hl (k := [(C.S i).off + 348, (C.S i).sub + 348]) ?_ ?_ (((Only.refl _ s).set (by simp) _).set (by simp) _) ⟨?_, ?_⟩
    · intro y hy
      simp only [BStr.own, List.mem_cons, List.not_mem_nil, or_false] at hy ⊢
      grind
    · intro y hy
      simp only [List.mem_cons, List.not_mem_nil, or_false, not_or] at hy ⊢
      grind
    · rw [set_eq, ← val h hx, this]; rfl
    · rw [set_ne (by grind), set_eq, val h hx]
      rw [val h hx] at this
      omega

theorem copy_step (hC : C.Ok L br) (h : SRep C cp σ s) {i j n : Nat} (hk : (StOp.copy i j).Ok L C σ) : Does L ((StOp.copy i j).stmt L C n) s (SRep C cp ((StOp.copy i j).spec σ)) := by
  obtain ⟨hi, hj⟩ := hk
  obtain ⟨a1, a2, a3⟩ := h.st i hi
  have hS := hC.S i hi
  have hS' := hC.S j hj
  have nd1 : (pvDw (C.S i).off ++ pvDw (C.S i).sub).Nodup := hS.nd.sublist (by unfold BStr.own pvDw; simp only [List.cons_append, List.nil_append]; sublist_tac)
  have hne : ∀ x ∈ [(C.S j).off + 348, (C.S j).sub + 348], ∀ y ∈ [(C.S i).off + 4, (C.S i).off + 344, (C.S i).sub + 4, (C.S i).sub + 344], x ≠ y := by
    by_cases e : j = i
    · subst e
      simp only [pvDw, List.nodup_cons, List.mem_cons, List.cons_append, List.nil_append, not_or, List.not_mem_nil, not_false_eq_true, List.nodup_nil, and_true, or_false] at nd1
      simp only [List.mem_cons, List.not_mem_nil, or_false, forall_eq_or_imp, forall_eq]
      grind
    · intro x hx y hy e2
      refine hC.sS j hj i hi e x ?_ (e2 ▸ ?_)
      · simp only [BStr.own, List.mem_cons, List.not_mem_nil, or_false] at hx ⊢; grind
      · simp only [BStr.own, List.mem_cons, List.not_mem_nil, or_false] at hy ⊢; grind
  have ndj : [(C.S j).off + 348, (C.S j).sub + 348].Nodup := hS'.nd.sublist (by unfold BStr.own; sublist_tac)
  have hO : ∀ x ∈ [(C.S j).off + 348, (C.S j).sub + 348, (C.S i).off + 4, (C.S i).off + 344, (C.S i).sub + 4, (C.S i).sub + 344], x ∈ (C.S j).own ∨ x ∈ (C.S i).own := by
    intro x hx
    simp only [BStr.own, List.mem_cons, List.not_mem_nil, or_false] at hx ⊢; grind
  simp only [List.nodup_cons, List.mem_cons, not_or, List.not_mem_nil, not_false_eq_true, List.nodup_nil, and_true, or_false, forall_eq_or_imp, forall_eq] at hne ndj
  refine (vproc2_does (nxt := n) (d1 := (C.S j).off + 348) (d2 := (C.S j).sub + 348) nd1 (by simp only [List.mem_cons, List.not_mem_nil, or_false, not_or]; grind) (by simp only [List.mem_cons, List.not_mem_nil, or_false, not_or]; grind) a3.1 a3.2.1).mono ?_
  rintro s' ⟨e1, e2, e3⟩
  have km : ∀ q, q < C.ns → (q = i ∨ q = j) → ∀ x ∈ [(C.S q).off + 352, (C.S q).sub + 352, (C.S q).v + 352], s' x = s x := by
    rintro q hq hqq x hx
    refine e3 x fun hm => ?_
    have ndq : [(C.S q).off + 4, (C.S q).off + 344, (C.S q).off + 348, (C.S q).off + 352, (C.S q).sub + 4, (C.S q).sub + 344, (C.S q).sub + 348, (C.S q).sub + 352, (C.S q).v + 352].Nodup := (hC.S q hq).nd.sublist (by unfold BStr.own; sublist_tac)
    have hxq : x ∈ (C.S q).own := by simp only [BStr.own, List.mem_cons, List.not_mem_nil, or_false] at hx ⊢; grind
    have oth : ∀ r, r < C.ns → x ∈ [(C.S r).off + 4, (C.S r).off + 344, (C.S r).off + 348, (C.S r).sub + 4, (C.S r).sub + 344, (C.S r).sub + 348] → False := by
      intro r hr hxr
      by_cases e : q = r
      · subst e
        simp only [List.nodup_cons, List.mem_cons, not_or, List.not_mem_nil, not_false_eq_true, List.nodup_nil, and_true, or_false] at ndq hx hxr
        grind
      · refine hC.sS q hq r hr e x hxq ?_
        simp only [BStr.own, List.mem_cons, List.not_mem_nil, or_false] at hxr ⊢; grind
    simp only [List.mem_cons, List.not_mem_nil, or_false] at hm
    rcases hm with hm | hm | hm
    · exact oth j hj (by simp [hm])
    · exact oth j hj (by simp [hm])
    · exact oth i hi (by simp only [List.mem_cons, List.not_mem_nil, or_false]; grind)
  refine step hC h (fun q => q = i ∨ q = j) e3 ?_ ?_ ?_ ?_
  · intro x hx
    rcases hO x hx with h1 | h1
    · exact .inr (.inr (.inl ⟨j, hj, .inr rfl, h1⟩))
    · exact .inr (.inr (.inl ⟨i, hi, .inl rfl, h1⟩))
  · intro q hq hqq
    refine ⟨?_, ?_, mds (km q hq hqq) (h.st q hq).2.2⟩
    · by_cases e : q = j
      · subst e
        rw [BHist.upd_self]
        exact ⟨by rw [e2, a1.1], by rw [e1, a1.2]⟩
      · have e' := hqq.resolve_right e
        subst e'
        rw [BHist.upd_ne e]
        have ndq : [(C.S q).off + 4, (C.S q).off + 344, (C.S q).off + 348, (C.S q).sub + 4, (C.S q).sub + 344, (C.S q).sub + 348].Nodup := (hC.S q hq).nd.sublist (by unfold BStr.own; sublist_tac)
        have sp := hC.sS q hq j hj e
        have s1 := sp ((C.S q).off + 348) (by simp [BStr.own])
        have s2 := sp ((C.S q).sub + 348) (by simp [BStr.own])
        have t1 : (C.S j).off + 348 ∈ (C.S j).own := by simp [BStr.own]
        have t2 : (C.S j).sub + 348 ∈ (C.S j).own := by simp [BStr.own]
        simp only [List.nodup_cons, List.mem_cons, not_or, List.not_mem_nil, not_false_eq_true, List.nodup_nil, and_true, or_false] at ndq
        refine ⟨?_, ?_⟩
        · rw [e3 _ ?_, a1.1]
          simp only [List.mem_cons, List.not_mem_nil, or_false, not_or]
          exact ⟨fun e => s2 (e ▸ t1), fun e => s2 (e ▸ t2), by grind, by grind, by grind, by grind⟩
        · rw [e3 _ ?_, a1.2]
          simp only [List.mem_cons, List.not_mem_nil, or_false, not_or]
          exact ⟨fun e => s1 (e ▸ t1), fun e => s1 (e ▸ t2), by grind, by grind, by grind, by grind⟩
    · by_cases e : q = j
      · rw [e, BHist.upd_self]; exact a2
      · rw [BHist.upd_ne e]; exact (h.st q hq).2.1
  · intro q hq hqq
    exact BHist.upd_ne fun e => hqq (.inr e)
  · intro x hx
    rw [e3 x fun hm => ?_, h.vis x hx]
    rcases hO x hm with h1 | h1
    · exact hx (sint hj h1)
    · exact hx (sint hi h1)

end SHist

open SHist in
/-- **C37 (one operation, with streams).** -/
theorem C37_stream_step {L : Layout} {C : SCfg} {br : Nat → Nat} (hC : C.Ok L br) {cp : W} {σ : SSt} {s : Mem} (h : SRep C cp σ s) {n : Nat} (hn : n < 2 ^ 32) (op : StOp) (hk : op.Ok L C σ) :
    Does L (op.stmt L C n) s (SRep C cp (op.spec σ)) := by
  cases op with
  | base op => exact base_step hC h hn hk
  | read i o => exact read_step hC h hn hk
  | write i x => exact write_step hC h hn hk
  | seek i x => exact seek_step hC h hn hk
  | seekE i e => exact seekE_step hC h hk
  | copy i j => exact copy_step hC h hk

/-- The state after a history. -/
def StOp.run (ops : List StOp) (σ : SSt) : SSt := ops.foldl (fun σ op => op.spec σ) σ

/-- Each operation may be used when it comes. -/
def StOp.AllOk (L : Layout) (C : SCfg) : List StOp → SSt → Prop
  | [], _ => True
  | op :: ops, σ => op.Ok L C σ ∧ StOp.AllOk L C ops (op.spec σ)

/-- **C37 (streams).** Any history of reads, writes, seeks and copies of positions by any number of `EUDByteStream`s, mixed with operations of readers and writers and assignments of the user: a stream reads and writes the
bytes from its position on, whatever reads or writes came before, and no object moves another. -/
theorem C37_stream_history {L : Layout} {C : SCfg} {br : Nat → Nat} (hC : C.Ok L br) {cp : W} : ∀ (ops : List (StOp × Nat)) {σ : SSt} {s : Mem}, SRep C cp σ s → (∀ o ∈ ops, o.2 < 2 ^ 32) →
    StOp.AllOk L C (ops.map Prod.fst) σ → Does L (.seqs (ops.map fun o => o.1.stmt L C o.2)) s (SRep C cp (StOp.run (ops.map Prod.fst) σ))
  | [], _, _, h, _, _ => Does.skip h
  | (op, n) :: ops, _, _, h, hn, hk => Does.seq ((C37_stream_step hC h (hn _ (by simp)) op hk.1).mono fun _ h1 => C37_stream_history hC ops h1 (fun o ho => hn o (by simp [ho])) hk.2)

/-- byterw.py:273-288 `copyto(W)`, for a writer: `EPD(_write) + 4` is the dword 16 bytes into the trigger `_write`. -/
def BStr.copyToW (S : BStr) (W : BWr) (n : Nat) : Stmt := .prim (VProc2Rel S.off S.sub (W.wr + 16) W.sub n)

/-- **C37 fails for `copyto` with a writer**: the writer takes over the place in the dword, but not the dword, so it is at the position of the stream only if it was at that dword already. -/
theorem C37_copyto_writer {L : Layout} {C : SCfg} {br : Nat → Nat} (hC : C.Ok L br) {cp : W} {σ : SSt} {s : Mem} (h : SRep C cp σ s) {i j n : Nat} (hi : i < C.ns) (hj : j < C.G.nw)
    (hu : (C.G.W j).wr + 16 ∉ (C.G.W j).sub :: ((C.G.W j).wr + 344) :: (C.S i).own) (hd : σ.wp j / 4 ≠ σ.sp i / 4) :
    Does L ((C.S i).copyToW (C.G.W j) n) s fun s' => s' (C.G.W j).sub = BitVec.ofNat 32 (σ.sp i % 4) ∧ ¬ (C.G.W j).At s' (σ.sp i) := by
  obtain ⟨a1, a2, a3⟩ := h.st i hi
  have nd1 : (pvDw (C.S i).off ++ pvDw (C.S i).sub).Nodup := (hC.S i hi).nd.sublist (by unfold BStr.own pvDw; simp only [List.cons_append, List.nil_append]; sublist_tac)
  have mS : ∀ x ∈ [(C.S i).off + 4, (C.S i).off + 344, (C.S i).sub + 4, (C.S i).sub + 344], x ∈ (C.S i).own := by
    intro x hx
    simp only [BStr.own, List.mem_cons, List.not_mem_nil, or_false] at hx ⊢; grind
  have iw : ∀ x ∈ C.G.own (.wr j), x ∉ (C.S i).own := fun x hx hm => (hC.sG i hi x hm).1 (BHist.int (b := .wr j) hj hx)
  have e1 := iw (C.G.W j).sub (by simp [BCfg.own])
  have e2 := iw ((C.G.W j).wr + 344) (by simp [BCfg.own])
  simp only [List.mem_cons, not_or] at hu
  refine (vproc2_does (nxt := n) nd1 (fun hm => hu.2.2 (mS _ hm)) (fun hm => ?_) a3.1 a3.2.1).mono ?_
  · rcases List.mem_cons.1 hm with hm | hm
    · exact hu.1 hm.symm
    · exact e1 (mS _ hm)
  · rintro s' ⟨-, q2, q3⟩
    refine ⟨by rw [q2, a1.1], fun hA => hd ?_⟩
    have ns := (BHist.bwrOk hC.G hj).ns
    simp only [List.mem_cons, not_or, List.not_mem_nil, not_false_eq_true, and_true] at ns
    have := hA.2.1
    rw [q3 _ ?_, (h.b.wr j hj).1.2.1] at this
    · have e : σ.wp j / 4 * 4 = σ.sp i / 4 * 4 := this
      omega
    · intro hm
      simp only [List.mem_cons, List.not_mem_nil, or_false] at hm
      rcases hm with hm | hm | hm
      · exact hu.2.1 hm.symm
      · exact ns.2.1 hm.symm
      · exact e2 (mS _ (by simpa using hm))

end Eud.SC
