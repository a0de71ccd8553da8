import Verif.Lib.SubRead
/-
C32, continued: reading flags at a variable sub-offset (memio/bwepdio.py:354-416): whether a byte is zero, and single bits.
-/

namespace Eud.SC

/-! ## A switch whose default is its end -/

/-- An `EUDSwitch` with actions in its first trigger.  Without a matching case control goes to the end, and the actions do not run (C26). -/
def SwADRel (L : Layout) (val : Mem → W) (acts : List PA) (cases : List (W × Stmt)) (s s' : Mem) : Prop :=
  (cases.lookup (val s) = none ∧ s' = s) ∨ SwARel L val acts cases s s'

theorem swAD_code {L : Layout} (hw : L.Wf) {val : Mem → W} {acts : List PA} {cases : List (W × Nat × Stmt)} {e x r k : Nat}
    (hsw : ∀ s, cases.lookup (val s) = none → L.Runs s e s x)
    (hsc : ∀ s c, ActsOk L acts s → val (runPA acts s) = val s → cases.lookup (val s) = some c →
      L.Runs s e (runPA acts s) (caseOf (cases.map fun c => (c.1, c.2.1)) x (val s)))
    (hb : ∀ c ∈ cases, ∃ n r' k', Code L r' x k' c.2.2 c.2.1 n) {b : Nat} :
    Code L r b k (.prim (SwADRel L val acts (cases.map fun c => (c.1, c.2.2)))) e x := by
  refine .prim ?_
  rintro s s' (⟨h1, rfl⟩ | h)
  · refine hsw _ ?_
    rw [lookup_map Prod.snd] at h1
    cases hl : cases.lookup (val s') with
    | none => rfl
    | some c => rw [hl] at h1; cases h1
  · have hc : Code L r b k (.prim (SwARel L val acts (cases.map fun c => (c.1, c.2.2)))) e x := swA_code hw hsc hb
    cases hc with
    | prim g => exact g _ _ h

/-- `DeathsX(CP, AtLeast, 1, 0, mask)` -/
def cpMask (mask : W) : PC := ⟨.check (some (.cp 0)) .atLeast (some 1) (some mask), none⟩

theorem cpMask_holds (s : Mem) (mask : W) : (cpMask mask).holds s = decide (s (epdAddr (s cpAddr)) &&& mask ≠ 0) := by
  simp only [PC.holds, cpMask, SCnd.res, Option.getD_some, Cnd.holds, cpAt0, atLeast_one]

theorem cpMask_ok {L : Layout} {s : Mem} (h : ¬ L.priv (epdAddr (s cpAddr))) (mask : W) : (cpMask mask).Ok L s := ⟨trivial, by
  simpa only [cpMask, SCnd.res, Option.getD_some, cpAt0] using h⟩

theorem byte_zero (w : W) (i : Nat) (hi : i < 4) : (w &&& byteMask 1 i ≠ 0) ↔ w.toNat / 2 ^ (8 * i) % 256 ≠ 0 := by
  have h : (w &&& byteMask 1 i = 0) ↔ w.toNat / 2 ^ (8 * i) % 256 = 0 := by
    constructor
    · intro h
      apply Nat.eq_of_testBit_eq
      intro j
      rw [show (256 : Nat) = 2 ^ 8 from rfl, Nat.testBit_mod_two_pow, Nat.zero_testBit, ← Nat.shiftRight_eq_div_pow, Nat.testBit_shiftRight]
      by_cases hj : j < 8
      · have := congrArg (fun v : W => v.getLsbD (8 * i + j)) h
        simp only [BitVec.getLsbD_and] at this
        rw [byteMask_bit _ _ _ (by omega), decide_eq_true (show 8 * i ≤ 8 * i + j by omega), decide_eq_true (show 8 * i + j < 8 * i + 8 * 1 by omega)] at this
        simpa [BitVec.getLsbD, hj] using this
      · simp [hj]
    · intro h
      apply BitVec.eq_of_getLsbD_eq
      intro j hj
      rw [BitVec.getLsbD_and, byteMask_bit _ _ _ (by omega)]
      by_cases hb : 8 * i ≤ j ∧ j < 8 * i + 8 * 1
      · have := congrArg (fun v : Nat => v.testBit (j - 8 * i)) h
        simp only [Nat.zero_testBit] at this
        rw [show (256 : Nat) = 2 ^ 8 from rfl, Nat.testBit_mod_two_pow, ← Nat.shiftRight_eq_div_pow, Nat.testBit_shiftRight, show 8 * i + (j - 8 * i) = j by omega] at this
        simp only [show j - 8 * i < 8 by omega, decide_true, Bool.true_and] at this
        simp [BitVec.getLsbD, this]
      · by_cases h1 : 8 * i ≤ j
        · simp [h1, show ¬ j < 8 * i + 8 by omega]
        · simp [h1]
  exact not_congr h

/-! ## `_boolread_epd` -/

/-- bwepdio.py:357-378: the cache of the current player, the offset parameter, the result variable, the end. -/
structure FlagRd where
  cpc : Nat
  sv : Nat
  bv : Nat
  fend : Nat

namespace FlagRd
variable (S : FlagRd) (L : Layout)

/-- bwepdio.py:362-368 -/
def acts : List PA := [aMem (S.bv + 348) .set 0, aMem (S.cpc + 4) .set (BitVec.ofNat 32 S.fend), aMem (S.cpc + 344) .set (epd cpAddr)]

/-- bwepdio.py:369-375: each case ends with the trigger of the cache, which goes on to the end of the function. -/
def case (i : Nat) : Stmt :=
  .seq (.trig [cpMask (byteMask 1 i)] [aMem (S.bv + 348) .set 1]) (.seq (.prim (PvRel L S.cpc 0xFFFFFFFF S.fend)) .brk)

/-- bwepdio.py:354-378 `_boolread_epd`.  The end of the switch is the end of the function. -/
def body : Stmt := .prim (SwADRel L (fun s => s (S.sv + 348)) S.acts (cases0 4 (S.case L)))

def own : List Nat := [S.cpc + 4, S.cpc + 344, cpAddr, S.bv + 348]

structure Ok : Prop where
  pv : PVar L S.cpc
  cb : L.cell (S.bv + 348)
  cp : L.cell cpAddr
  nd : (S.own ++ [S.cpc + 348, S.cpc + 352, S.sv + 348]).Nodup
end FlagRd

theorem FlagRd.body_does {S : FlagRd} {L : Layout} (hS : S.Ok L) {s : Mem} (hc : s (S.cpc + 352) = pmod .set) {A : Nat} (hA : epdAddr (s cpAddr) = A)
    (hp : ¬ L.priv A ∧ A ∉ S.own) :
    Does L (S.body L) s fun s' => (if (s (S.sv + 348)).toNat < 4 then
      s' (S.bv + 348) = (if (s A).toNat / 2 ^ (8 * (s (S.sv + 348)).toNat) % 256 ≠ 0 then 1 else 0) ∧ s' cpAddr = s (S.cpc + 348)
      else s' (S.bv + 348) = s (S.bv + 348) ∧ s' cpAddr = s cpAddr) ∧ Only S.own s s' := by
  have hnd := hS.nd
  have hpA := hp.2
  simp only [FlagRd.own, List.cons_append, List.nil_append, List.nodup_cons, List.mem_cons, List.not_mem_nil, or_false, not_or] at hnd hpA
  generalize ei : (s (S.sv + 348)).toNat = i at *
  by_cases hi : i < 4
  · simp only [if_pos hi]
    have hl : (cases0 4 (S.case L)).lookup (s (S.sv + 348)) = some (S.case L i) := by
      rw [cases0_lookup (by decide), ei, if_pos hi]
    have er : runPA S.acts s = ((s.set (S.bv + 348) 0).set (S.cpc + 4) (BitVec.ofNat 32 S.fend)).set (S.cpc + 344) (epd cpAddr) := by
      simp only [FlagRd.acts, runPA, List.foldl_cons, List.foldl_nil, aMem_run, arith]
    generalize e1 : runPA S.acts s = s1 at er
    have g0 : s1 (S.bv + 348) = 0 := by rw [er, set_ne (by grind), set_ne (by grind), set_eq]
    have g3 : s1 (S.cpc + 4) = BitVec.ofNat 32 S.fend := by rw [er, set_ne (by grind), set_eq]
    have g4 : s1 (S.cpc + 344) = epd cpAddr := by rw [er, set_eq]
    have f1 : ∀ x, x ≠ S.bv + 348 → x ≠ S.cpc + 4 → x ≠ S.cpc + 344 → s1 x = s x := fun x h1 h2 h3 => by rw [er, set_ne h3, set_ne h2, set_ne h1]
    have ecp : s1 cpAddr = s cpAddr := f1 _ (by grind) (by grind) (by grind)
    have eA : s1 A = s A := f1 _ (by grind) (by grind) (by grind)
    have key : Wp L (S.case L i) s1 fun o s' => o = .brk ∧ (s' (S.bv + 348) = (if (s A).toNat / 2 ^ (8 * i) % 256 ≠ 0 then 1 else 0) ∧ s' cpAddr = s (S.cpc + 348)) ∧ Only S.own s s' := by
      have hh : (cpMask (byteMask 1 i)).holds s1 = decide ((s A).toNat / 2 ^ (8 * i) % 256 ≠ 0) := by
        rw [cpMask_holds, ecp, hA, eA]
        exact decide_eq_decide.2 (byte_zero _ _ hi)
      have fin : ∀ s2 : Mem, (∀ x, x ≠ S.bv + 348 → s2 x = s1 x) → s2 (S.bv + 348) = (if (s A).toNat / 2 ^ (8 * i) % 256 ≠ 0 then 1 else 0) →
          Wp L (.seq (.prim (PvRel L S.cpc 0xFFFFFFFF S.fend)) .brk) s2 fun o s' => o = .brk ∧ (s' (S.bv + 348) = (if (s A).toNat / 2 ^ (8 * i) % 256 ≠ 0 then 1 else 0) ∧
            s' cpAddr = s (S.cpc + 348)) ∧ Only S.own s s' := by
        intro s2 h2 hb
        have k4 : s2 (S.cpc + 4) = BitVec.ofNat 32 S.fend := by rw [h2 _ (by grind), g3]
        have k3 : s2 (S.cpc + 344) = epd cpAddr := by rw [h2 _ (by grind), g4]
        have k5 : s2 (S.cpc + 352) = pmod .set := by rw [h2 _ (by grind), f1 _ (by grind) (by grind) (by grind), hc]
        refine Wp.seqN (Does.prim (s' := s2.set cpAddr (s2 (S.cpc + 348))) ⟨.set, .mem cpAddr, k5, by rw [k3]; exact dstOf_epd epdOK_cp, hS.cp, ?_, k4, ?_⟩ (Wp.brk ⟨rfl, ⟨?_, ?_⟩, ?_⟩))
        · show cpAddr ≠ S.cpc + 4; grind
        · show _ = s2.set cpAddr (modify .set (s2 cpAddr) (s2 (S.cpc + 348)) (BitVec.ofNat 32 0xFFFFFFFF))
          rw [show BitVec.ofNat 32 0xFFFFFFFF = (0xFFFFFFFF : W) from rfl, modify_full]; rfl
        · rw [set_ne (by grind), hb]
        · rw [set_eq, h2 _ (by grind), f1 _ (by grind) (by grind) (by grind)]
        · intro x hx
          simp only [FlagRd.own, List.mem_cons, List.not_mem_nil, or_false, not_or] at hx
          rw [set_ne (by grind), h2 _ (by grind), f1 _ (by grind) (by grind) (by grind)]
      refine Wp.seqN (Does.trig ?_ (fun h => ⟨actsOk_mem hS.cb trivial, fin _ ?_ ?_⟩) (fun h => fin _ ?_ ?_))
      · intro p hp'
        rw [List.mem_singleton.1 hp']
        exact cpMask_ok (by rw [ecp, hA]; exact hp.1) _
      · intro x hx
        simp only [runPA, List.foldl_cons, List.foldl_nil, aMem_run]
        rw [set_ne hx]
      · simp only [holdsAll_cons, holdsAll_nil, Bool.and_true, hh, decide_eq_true_eq] at h
        simp only [runPA, List.foldl_cons, List.foldl_nil, aMem_run]
        rw [set_eq, if_pos h]; rfl
      · exact fun x _ => rfl
      · simp only [holdsAll_cons, holdsAll_nil, Bool.and_true, hh, decide_eq_false_iff_not] at h
        rw [g0, if_neg h]
    obtain ⟨o, s', q1, rfl, q2, q3⟩ := key
    refine Does.prim (s' := s') (Or.inr ⟨actsOk_mem hS.cb (actsOk_mem hS.pv.nxt (actsOk_mem hS.pv.dst trivial)), ?_, _, hl, by rw [e1]; exact q1⟩) ⟨q2, q3⟩
    rw [e1]; exact f1 _ (by grind) (by grind) (by grind)
  · simp only [if_neg hi]
    exact Does.prim (s' := s) (Or.inl ⟨by rw [cases0_lookup (by decide), ei, if_neg hi], rfl⟩) ⟨by simp, Only.refl _ s⟩

/-- **C32, flags.**  `_boolread_epd(e, i)` for `i < 4`: 1 if byte `i` of the dword `e` is not zero, else 0; the current player is restored from its cache.
For `i ≥ 4` the result is what an earlier call left in the result variable, and *the current player stays at `e`*: the property fails there. -/
theorem C32_bool {S : FlagRd} {L : Layout} (hw : L.Wf) {nptr fstart back o : Nat} {e i : Src} {args : List (Nat × Src)} (hS : S.Ok L)
    (he : (cpAddr, e) ∈ args) (hi : (S.sv + 348, i) ∈ args)
    (hO : CallOk L nptr [(S.bv, o)] args S.own) (hF : FuncCode L fstart S.fend nptr [S.bv] (S.body L)) (hback : back < 2 ^ 32) {s : Mem} (hc : s (S.cpc + 352) = pmod .set)
    (hin : ∀ x ∈ [S.cpc + 348, S.cpc + 352, S.bv + 348], x ∉ nptr :: (S.bv + 344) :: args.map Prod.fst) (ho : cpAddr ≠ o ∧ cpAddr ≠ S.bv + 4)
    (hp : ¬ L.priv (epdAddr (e.valM s)) ∧ epdAddr (e.valM s) ∉ nptr :: (S.bv + 344) :: args.map Prod.fst ++ S.own) :
    Does L (.prim (CallRel L S.fend nptr back (S.body L) [(S.bv, o)] args)) s fun s' =>
      (if (i.valM s).toNat < 4 then
        s' o = (if (s (epdAddr (e.valM s))).toNat / 2 ^ (8 * (i.valM s).toNat) % 256 ≠ 0 then 1 else 0) ∧ s' cpAddr = s (S.cpc + 348)
        else s' o = s (S.bv + 348) ∧ s' cpAddr = e.valM s) ∧ Only (callOnly nptr [(S.bv, o)] args S.own) s s' := by
  generalize hA : epdAddr (e.valM s) = A at *
  refine Does.mono (C31_does hw hO hF hback (Q := fun s2 => if (i.valM s).toNat < 4 then
      s2 (S.bv + 348) = (if (s A).toNat / 2 ^ (8 * (i.valM s).toNat) % 256 ≠ 0 then 1 else 0) ∧ s2 cpAddr = s (S.cpc + 348)
      else s2 (S.bv + 348) = s (S.bv + 348) ∧ s2 cpAddr = e.valM s) ?_) ?_
  · intro s1 a1 o1
    have b1 : s1 cpAddr = e.valM s := a1 _ he
    have b2 : s1 (S.sv + 348) = i.valM s := a1 _ hi
    simp only [List.map_cons, List.map_nil, List.cons_append, List.nil_append] at o1
    have q1 : s1 A = s A := o1 _ fun h => hp.2 (List.mem_append_left _ h)
    refine Wp.mono (Does.wp (FlagRd.body_does hS (s := s1) (by rw [o1 _ (hin _ (by simp)), hc]) (A := A) (by rw [b1, hA]) ⟨hp.1, fun h => hp.2 (List.mem_append_right _ h)⟩)) ?_
    rintro o2 s2 ⟨rfl, k1, k2⟩
    refine ⟨Or.inl rfl, ?_, k2⟩
    rw [b2, q1, o1 _ (hin _ (by simp)), b1, o1 (S.bv + 348) (hin _ (by simp))] at k1
    exact k1
  · rintro s' ⟨⟨s2, k, r1, r2⟩, o3⟩
    have r1' := r1 (S.bv, o) (by simp)
    simp only [List.map_cons, List.map_nil, List.cons_append, List.nil_append] at r2 r1'
    rw [r1', r2 cpAddr (by simp only [List.mem_cons, List.not_mem_nil, or_false, not_or]; exact ho)]
    exact ⟨k, o3⟩

/-! ## `_bitread_epd` -/

/-- bwepdio.py:398-411: case `i` of the reader of the bit `1 << q`. -/
def bitRdCase (b q i : Nat) : Stmt := .seq (.trig [cpMask (pow2 (q + 8 * i))] [aMem (b + 348) .set 1]) .brk

/-- bwepdio.py:398-413: the reader of the bit `1 << q` with parameters `ev`, `sv`. -/
def bitRdBody (L : Layout) (ev sv cpc b fr q n1 n2 : Nat) : Stmt :=
  .seq (vproc L ev 0xFFFFFFFF n1 [aMem (ev + 344) .set (epd cpAddr), aMem (b + 348) .set 0])
    (.seq (.prim (SwRel L (fun s => s (sv + 348)) (cases0 4 (bitRdCase b q)))) (.seq (cpBack L cpc n2) (retVar fr b)))

def bitRdOwn (ev cpc b fr : Nat) : List Nat := [ev + 4, ev + 344, cpAddr, cpc + 4, cpc + 344, b + 348, fr + 348]

theorem bitRdBody_does {L : Layout} {ev sv cpc b fr q n1 n2 : Nat} (hv : WrVars L ev cpc) (hq : q < 8) (hbv : b ∈ L.P.vars) (hbc : L.cell (b + 348)) (hf : L.cell (fr + 348))
    (nd : (bitRdOwn ev cpc b fr ++ [ev + 348, ev + 352, sv + 348, cpc + 348, cpc + 352]).Nodup) {s : Mem} (hm : s (ev + 352) = pmod .set) (hmc : s (cpc + 352) = pmod .set)
    {A : Nat} (hA : epdAddr (s (ev + 348)) = A) (hp : ¬ L.priv A ∧ A ∉ bitRdOwn ev cpc b fr) :
    Wp L (bitRdBody L ev sv cpc b fr q n1 n2) s fun o s' => (o = .nrm ∨ o = .ret) ∧
      (s' (fr + 348) = (if (s (sv + 348)).toNat < 4 ∧ (s A).getLsbD (q + 8 * (s (sv + 348)).toNat) = true then 1 else 0) ∧ s' cpAddr = s (cpc + 348)) ∧
      Only (bitRdOwn ev cpc b fr) s s' := by
  have hpA := hp.2
  simp only [bitRdOwn, List.cons_append, List.nil_append, List.nodup_cons, List.mem_cons, List.not_mem_nil, or_false, not_or] at nd hpA
  generalize ei : (s (sv + 348)).toNat = i at *
  unfold bitRdBody
  refine Wp.seqN (vproc_full (acts := [aMem (ev + 344) .set (epd cpAddr), aMem (b + 348) .set 0]) (s := s) hv.pe (d := cpAddr) (md := .set)
    (actsOk_mem hv.pe.dst (actsOk_mem hbc trivial)) ?_ ?_ epdOK_cp hv.cp (by grind) ?_)
  · simp only [runPA_cons, runPA_nil, aMem_run]; rw [set_ne (by grind), set_ne (by grind), hm]
  · simp only [runPA_cons, runPA_nil, aMem_run]; rw [set_ne (by grind), set_eq]; rfl
  simp only [runPA_cons, runPA_nil, aMem_run, arith]
  rw [show ((s.set (ev + 344) (epd cpAddr)).set (b + 348) 0) (ev + 348) = s (ev + 348) by rw [set_ne (by grind), set_ne (by grind)]]
  generalize e1 : Mem.set _ cpAddr (s (ev + 348)) = s1
  have f1 : ∀ x, x ≠ cpAddr → x ≠ ev + 4 → x ≠ b + 348 → x ≠ ev + 344 → s1 x = s x := fun x h1 h2 h3 h4 => by rw [← e1, set_ne h1, set_ne h2, set_ne h3, set_ne h4]
  have g1 : s1 cpAddr = s (ev + 348) := by rw [← e1, set_eq]
  have g2 : s1 (b + 348) = 0 := by rw [← e1, set_ne (by grind), set_ne (by grind), set_eq]
  have eA : s1 A = s A := f1 _ (by grind) (by grind) (by grind) (by grind)
  have es : s1 (sv + 348) = s (sv + 348) := f1 _ (by grind) (by grind) (by grind) (by grind)
  have step2 : Does L (.prim (SwRel L (fun s => s (sv + 348)) (cases0 4 (bitRdCase b q)))) s1 fun s2 =>
      s2 (b + 348) = (if i < 4 ∧ (s A).getLsbD (q + 8 * i) = true then 1 else 0) ∧ ∀ x, x ≠ b + 348 → s2 x = s1 x := by
    refine Does.sw (fun hl => ?_) (fun st hl => ?_)
    · rw [cases0_lookup (by decide), es, ei] at hl
      by_cases hi : i < 4
      · rw [if_pos hi] at hl; cases hl
      · exact ⟨by rw [g2, if_neg (fun h => hi h.1)], fun x _ => rfl⟩
    · rw [cases0_lookup (by decide), es, ei] at hl
      by_cases hi : i < 4
      · rw [if_pos hi] at hl
        cases hl
        have hh : (cpMask (pow2 (q + 8 * i))).holds s1 = (s A).getLsbD (q + 8 * i) := by
          rw [cpMask_holds, g1, hA, eA, ← atLeast_one]
          exact pow2_bit _ (by clear nd hpA; omega)
        refine Wp.seqN (Does.trig ?_ (fun h => ⟨actsOk_mem hbc trivial, Wp.brk ⟨rfl, ?_, ?_⟩⟩) (fun h => Wp.brk ⟨rfl, ?_, ?_⟩))
        · intro p hp'
          rw [List.mem_singleton.1 hp']
          exact cpMask_ok (by rw [g1, hA]; exact hp.1) _
        · simp only [holdsAll_cons, holdsAll_nil, Bool.and_true, hh] at h
          simp only [runPA_cons, runPA_nil, aMem_run]
          rw [set_eq, if_pos ⟨hi, h⟩]; rfl
        · intro x hx
          simp only [runPA_cons, runPA_nil, aMem_run]
          rw [set_ne hx]
        · simp only [holdsAll_cons, holdsAll_nil, Bool.and_true, hh] at h
          rw [g2, if_neg (fun g => by rw [h] at g; cases g.2)]
        · exact fun x _ => rfl
      · rw [if_neg hi] at hl; cases hl
  refine Wp.seqN (Does.mono step2 ?_)
  rintro s2 ⟨k1, k2⟩
  refine Wp.seqN (Does.mono (cpBack_does hv.pc hv.cp (by simp only [List.mem_cons, List.not_mem_nil, or_false, not_or]; grind)
    (by rw [k2 _ (by grind), f1 _ (by grind) (by grind) (by grind) (by grind), hmc])) ?_)
  rintro s3 ⟨k3, k4⟩
  refine Wp.seqN (Does.asg (by simpa using hf) (by simpa using hbv) (Wp.ret ⟨Or.inr rfl, ⟨?_, ?_⟩, ?_⟩))
  · simp only [runAsg, Src.valM, set_eq, arith]
    rw [k4 _ (by simp only [cpBackScr, List.mem_cons, List.not_mem_nil, or_false, not_or]; grind), k1]
  · simp only [runAsg]
    rw [set_ne (by grind), k3, k2 _ (by grind), f1 _ (by grind) (by grind) (by grind) (by grind)]
  · intro x hx
    simp only [bitRdOwn, List.mem_cons, List.not_mem_nil, or_false, not_or] at hx
    simp only [runAsg]
    rw [set_ne (by grind), k4 _ (by simp only [cpBackScr, List.mem_cons, List.not_mem_nil, or_false, not_or]; grind), k2 _ (by grind), f1 _ (by grind) (by grind) (by grind) (by grind)]

/-- **C32, bits.**  `_bitread_epd(1 << q)(e, i)`: bit `q` of byte `i` of the dword `e`; 0 for `i ≥ 4`.  The current player is restored from its cache. -/
theorem C32_bit {L : Layout} (hw : L.Wf) {ev sv cpc b fr q n1 n2 fend nptr fstart back o : Nat} {e i : Src} {args : List (Nat × Src)} (hv : WrVars L ev cpc) (hq : q < 8)
    (hbv : b ∈ L.P.vars) (hbc : L.cell (b + 348)) (hf : L.cell (fr + 348))
    (nd : (bitRdOwn ev cpc b fr ++ [ev + 348, ev + 352, sv + 348, cpc + 348, cpc + 352]).Nodup) (he : (ev + 348, e) ∈ args) (hi : (sv + 348, i) ∈ args)
    (hO : CallOk L nptr [(fr, o)] args (bitRdOwn ev cpc b fr)) (hF : FuncCode L fstart fend nptr [fr] (bitRdBody L ev sv cpc b fr q n1 n2)) (hback : back < 2 ^ 32) {s : Mem}
    (hm : s (ev + 352) = pmod .set) (hmc : s (cpc + 352) = pmod .set)
    (hin : ∀ x ∈ [ev + 352, cpc + 348, cpc + 352], x ∉ nptr :: (fr + 344) :: args.map Prod.fst) (ho : cpAddr ≠ o ∧ cpAddr ≠ fr + 4)
    (hp : ¬ L.priv (epdAddr (e.valM s)) ∧ epdAddr (e.valM s) ∉ nptr :: (fr + 344) :: args.map Prod.fst ++ bitRdOwn ev cpc b fr) :
    Does L (.prim (CallRel L fend nptr back (bitRdBody L ev sv cpc b fr q n1 n2) [(fr, o)] args)) s fun s' =>
      s' o = (if (i.valM s).toNat < 4 ∧ (s (epdAddr (e.valM s))).getLsbD (q + 8 * (i.valM s).toNat) = true then 1 else 0) ∧ s' cpAddr = s (cpc + 348) ∧
        Only (callOnly nptr [(fr, o)] args (bitRdOwn ev cpc b fr)) s s' := by
  generalize hA : epdAddr (e.valM s) = A at *
  refine Does.mono (C31_does hw hO hF hback (Q := fun s2 => s2 (fr + 348) = (if (i.valM s).toNat < 4 ∧ (s A).getLsbD (q + 8 * (i.valM s).toNat) = true then 1 else 0) ∧
      s2 cpAddr = s (cpc + 348)) ?_) ?_
  · intro s1 a1 o1
    have b1 : s1 (ev + 348) = e.valM s := a1 _ he
    have b2 : s1 (sv + 348) = i.valM s := a1 _ hi
    simp only [List.map_cons, List.map_nil, List.cons_append, List.nil_append] at o1
    have q1 : s1 A = s A := o1 _ fun h => hp.2 (List.mem_append_left _ h)
    refine Wp.mono (bitRdBody_does hv hq hbv hbc hf nd (s := s1) (by rw [o1 _ (hin _ (by simp)), hm]) (by rw [o1 _ (hin _ (by simp)), hmc]) (A := A) (by rw [b1, hA])
      ⟨hp.1, fun h => hp.2 (List.mem_append_right _ h)⟩) ?_
    rintro o2 s2 ⟨k0, k1, k2⟩
    rw [b2, q1, o1 _ (hin _ (by simp))] at k1
    exact ⟨k0, k1, k2⟩
  · rintro s' ⟨⟨s2, k, r1, r2⟩, o3⟩
    have r1' := r1 (fr, o) (by simp)
    simp only [List.map_cons, List.map_nil, List.cons_append, List.nil_append] at r2 r1'
    rw [r1', r2 cpAddr (by simp only [List.mem_cons, List.not_mem_nil, or_false, not_or]; exact ho)]
    exact ⟨k.1, k.2, o3⟩

end Eud.SC
