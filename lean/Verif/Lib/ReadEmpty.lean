import Verif.Lib.MemRead
/-
Readers that look for an empty dword first: `f_readgen_epd` with `_check_empty=True` (memio/memifgen.py:22-67), as used for pointers to units and sprites
(memio/specialized.py:11-55).
-/

namespace Eud.SC

/-- memifgen.py:38 `Deaths(CP, Exactly, 0, 0)` -/
def cpZero : PC := ⟨.check (some (.cp 0)) .exactly (some 0) (some 0xFFFFFFFF), none⟩

theorem cpZero_holds (s : Mem) : cpZero.holds s = decide (s (epdAddr (s cpAddr)) = 0) := by
  simp only [PC.holds, cpZero, SCnd.res, Option.getD_some, Cnd.holds, cpAt0, compare]
  congr 1
  rw [show (0xFFFFFFFF : W) = BitVec.allOnes 32 from rfl, BitVec.and_allOnes]

theorem cpZero_ok {L : Layout} {s : Mem} (h : ¬ L.priv (epdAddr (s cpAddr))) : cpZero.Ok L s := by
  refine ⟨trivial, ?_⟩
  simp only [cpZero, SCnd.res, Option.getD_some, cpAt0]
  exact h

/-- memifgen.py:37-41: all results 0, and the next pointer of the trigger becomes `done`. -/
def emActs (chk fin : Nat) (inits : List (Nat × W)) : List PA := ((inits.map fun p => (p.1, (0 : W))).map fun p => aMem p.1 .set p.2) ++ [aMem (chk + 4) .set (BitVec.ofNat 32 fin)]

/-- memifgen.py:35-61: the trigger `check` goes on to `init`; if the dword is 0 it sets the results and goes to `done` instead. -/
def EmptyRel (L : Layout) (chk ini fin : Nat) (inits : List (Nat × W)) (items : List (Nat × List (Nat × W))) (s s' : Mem) : Prop :=
  s (chk + 4) = BitVec.ofNat 32 ini ∧ ¬ L.priv (epdAddr (s cpAddr)) ∧
    if s (epdAddr (s cpAddr)) = 0 then ActsOk L (emActs chk fin inits) s ∧ runPA (emActs chk fin inits) s (chk + 4) = BitVec.ofNat 32 fin ∧ s' = runPA (emActs chk fin inits) s
    else Exec L (rdCore 0 inits items) s .nrm s'

theorem empty_code {L : Layout} (hw : L.Wf) {chk ini fin : Nat} {inits : List (Nat × W)} {items : List (Nat × List (Nat × W))}
    (hb : (⟨chk, ⟨[cpZero.c], (emActs chk fin inits).map PA.a⟩, none, false⟩ : SBlk) ∈ L.P.blks) (h4 : ¬ L.priv (chk + 4)) (ha : PlacedA (chk + 328) (emActs chk fin inits))
    (hi : ini < 2 ^ 32) (hf : fin < 2 ^ 32) {u r b k : Nat} (hc : ∃ b' k', Code L u b' k' (rdCore 0 inits items) ini fin) : Code L r b k (.prim (EmptyRel L chk ini fin inits items)) chk fin := by
  obtain ⟨b', k', hc⟩ := hc
  refine .prim ?_
  rintro s s' ⟨h1, h2, h3⟩
  have g := Layout.Runs.dyn hw (cs := [cpZero]) hb h4 ⟨by simp [cpZero, SCnd.static], trivial⟩ ha (s := s) (by simpa using cpZero_ok h2)
  simp only [holdsAll_cons, holdsAll_nil, Bool.and_true, cpZero_holds, decide_eq_true_eq] at g
  split at h3
  · rename_i h0
    obtain ⟨q1, q2, rfl⟩ := h3
    have := g fun _ => q1
    rwa [if_pos h0, q2, BitVec.toNat_ofNat, Nat.mod_eq_of_lt hf] at this
  · rename_i h0
    have := g fun h => absurd h h0
    rw [if_neg h0, h1, BitVec.toNat_ofNat, Nat.mod_eq_of_lt hi] at this
    exact this.trans (C25_structured hw h3 hc)

/-- memifgen.py:32-66 with `_check_empty=True`: afterwards `f_setcurpl2cpcache` also makes `check` go on to `init` again. -/
def emBody (L : Layout) (cpc n chk ini fin : Nat) (inits : List (Nat × W)) (items : List (Nat × List (Nat × W))) : Stmt :=
  .seq (.prim (EmptyRel L chk ini fin inits items)) (vproc L cpc 0xFFFFFFFF n [aMem (chk + 4) .set (BitVec.ofNat 32 ini), aMem (cpc + 344) .set (epd cpAddr)])

/-- The next pointer of `check` is apart from the other dwords. -/
structure ChkOk (L : Layout) (cpc chk : Nat) (inits : List (Nat × W)) : Prop where
  c : L.cell (chk + 4)
  ncp : chk + 4 ≠ cpAddr
  ni : chk + 4 ∉ inits.map Prod.fst
  nk : chk + 4 ∉ [cpc + 4, cpc + 344, cpc + 348, cpc + 352]

theorem emBody_does {L : Layout} {cpc n chk ini fin : Nat} {inits : List (Nat × W)} {items : List (Nat × List (Nat × W))} (h : RdHyp L inits items) (hk : CpcOk L cpc inits) (hc : ChkOk L cpc chk inits) {s : Mem}
    (hm : s (cpc + 352) = pmod .set) (hi : s (chk + 4) = BitVec.ofNat 32 ini) (hp : ¬ L.priv (epdAddr (s cpAddr))) (ha : epdAddr (s cpAddr) ∉ inits.map Prod.fst) (hcp : epdAddr (s cpAddr) ≠ cpAddr) :
    Does L (emBody L cpc n chk ini fin inits items) s fun s' => (∀ p ∈ inits, s' p.1 = if s (epdAddr (s cpAddr)) = 0 then 0 else p.2 + sumBitsC (s (epdAddr (s cpAddr))) p.1 items) ∧
      s' cpAddr = s (cpc + 348) ∧ s' (chk + 4) = BitVec.ofNat 32 ini ∧ Only ((chk + 4) :: cpBackScr cpc ++ inits.map Prod.fst) s s' := by
  have hnc := hk.ncp
  have hnk := hc.nk
  simp only [List.mem_cons, List.not_mem_nil, or_false, not_or] at hnc hnk
  have hni : ∀ y ∈ [cpc + 4, cpc + 344, cpc + 348, cpc + 352], y ∉ inits.map Prod.fst := by
    intro y hy hy'
    obtain ⟨p, hp', e⟩ := List.mem_map.1 hy'
    exact hk.ni p hp' (e ▸ hy)
  have ncp : cpAddr ∉ inits.map Prod.fst := by
    intro hm
    obtain ⟨p, hp', e⟩ := List.mem_map.1 hm
    exact (h.ic p hp').2 e
  have first : Does L (.prim (EmptyRel L chk ini fin inits items)) s fun s1 => (∀ p ∈ inits, s1 p.1 = if s (epdAddr (s cpAddr)) = 0 then 0 else p.2 + sumBitsC (s (epdAddr (s cpAddr))) p.1 items) ∧
      Only ((chk + 4) :: cpAddr :: inits.map Prod.fst) s s1 := by
    by_cases h0 : s (epdAddr (s cpAddr)) = 0
    · have ez : (inits.map fun p => (p.1, (0 : W))).map Prod.fst = inits.map Prod.fst := by rw [List.map_map]; rfl
      obtain ⟨i1, i2⟩ := runPA_inits (inits.map fun p => (p.1, (0 : W))) s (by rw [ez]; exact h.nd)
      rw [ez] at i2
      have hok : ActsOk L (emActs chk fin inits) s := by
        refine ActsOk.append.2 ⟨actsOk_inits _ _ ?_, actsOk_mem hc.c trivial⟩
        intro p hp'
        obtain ⟨q, hq, rfl⟩ := List.mem_map.1 hp'
        exact (h.ic q hq).1
      have hr : runPA (emActs chk fin inits) s = (runPA ((inits.map fun p => (p.1, (0 : W))).map fun p => aMem p.1 .set p.2) s).set (chk + 4) (BitVec.ofNat 32 fin) := by
        unfold emActs
        rw [runPA_append, runPA_cons, runPA_nil, aMem_run]
        simp only [arith]
      refine Does.prim (s' := runPA (emActs chk fin inits) s) ⟨hi, hp, ?_⟩ ⟨fun p hp' => ?_, ?_⟩
      · rw [if_pos h0]
        exact ⟨hok, by rw [hr, set_eq], rfl⟩
      · rw [if_pos h0, hr, set_ne (show p.1 ≠ chk + 4 from fun e => hc.ni (by rw [← e]; exact List.mem_map_of_mem hp'))]
        exact i1 (p.1, 0) (List.mem_map_of_mem (f := fun p : Nat × W => (p.1, (0 : W))) hp')
      · intro x hx
        simp only [List.mem_cons, not_or] at hx
        rw [hr, set_ne hx.1, i2 x hx.2.2]
    · obtain ⟨s1, x1, x2, -, x4⟩ := rdCore_does (u := 0) h hp ha hcp
      refine Does.prim (s' := s1) ⟨hi, hp, by rw [if_neg h0]; exact x1⟩ ⟨fun p hp' => by rw [if_neg h0]; exact x2 p hp', x4.mono fun x hx => by simp only [List.mem_cons] at hx ⊢; exact Or.inr hx⟩
  unfold emBody
  refine Does.seq (Does.mono first ?_)
  rintro s1 ⟨h1, h3⟩
  have k1 : ∀ y ∈ [cpc + 4, cpc + 344, cpc + 348, cpc + 352], s1 y = s y := by
    intro y hy
    refine h3 y ?_
    have := hni y hy
    simp only [List.mem_cons, List.not_mem_nil, or_false] at hy
    simp only [List.mem_cons, not_or]
    refine ⟨?_, ?_, this⟩ <;> (rcases hy with rfl | rfl | rfl | rfl <;> omega)
  refine vproc_full (acts := [aMem (chk + 4) .set (BitVec.ofNat 32 ini), aMem (cpc + 344) .set (epd cpAddr)]) (s := s1) hk.pv (d := cpAddr) (md := .set) (actsOk_mem hc.c (actsOk_mem hk.pv.dst trivial)) ?_ ?_ epdOK_cp h.cp (by omega) ⟨?_, ?_, ?_, ?_⟩
  · simp only [runPA_cons, runPA_nil, aMem_run, get_set]; rw [if_neg (by omega), if_neg (by omega), k1 _ (by simp), hm]
  · simp only [runPA_cons, runPA_nil, aMem_run, get_set, if_true, arith]
  · intro p hp'
    have q1 := hk.ni p hp'
    have q2 := (h.ic p hp').2
    have q3 : chk + 4 ≠ p.1 := fun e => hc.ni (e ▸ List.mem_map_of_mem hp')
    simp only [List.mem_cons, List.not_mem_nil, or_false, not_or] at q1
    simp only [runPA_cons, runPA_nil, aMem_run, get_set, arith]
    rw [if_neg q2, if_neg (by omega), if_neg (by omega), if_neg (Ne.symm q3)]
    exact h1 p hp'
  · simp only [runPA_cons, runPA_nil, aMem_run, get_set, if_true, arith]
    rw [if_neg (by omega), if_neg (by omega), k1 _ (by simp)]
  · simp only [runPA_cons, runPA_nil, aMem_run, get_set, arith]
    rw [if_neg hc.ncp, if_neg (by omega), if_neg (by omega), if_pos trivial]
  · intro x hx
    simp only [cpBackScr, List.cons_append, List.mem_cons, List.nil_append, not_or] at hx
    simp only [runPA_cons, runPA_nil, aMem_run, get_set, arith]
    rw [if_neg (by omega), if_neg (by omega), if_neg (by omega), if_neg (by omega)]
    refine h3 x ?_
    simp only [List.mem_cons, not_or]
    exact ⟨hx.1, hx.2.2.2.1, hx.2.2.2.2⟩

/-- **C32 (`f_readgen_epd` with `_check_empty`).** For an empty dword all results are 0, otherwise they are those of the reader without the check; the trigger that checks is as before afterwards,
the current player is the cached one, and only the listed dwords change. -/
theorem C32_readgen_empty {L : Layout} (hw : L.Wf) {fend nptr fstart back cpc n chk ini fin : Nat} {mask : W} {rs : List GenRet} {outs : List (Nat × Nat)} {src : Src}
    (hcp : L.cell cpAddr) (hnd : (rs.map GenRet.at_).Nodup) (hc : ∀ r ∈ rs, L.cell r.at_ ∧ r.at_ ≠ cpAddr) (hk : CpcOk L cpc (genInits rs)) (hch : ChkOk L cpc chk (genInits rs))
    (ho : ∀ r ∈ outs, r.1 + 348 ∈ rs.map GenRet.at_) (hO : CallOk L nptr outs [(cpAddr, src)] ((chk + 4) :: cpBackScr cpc ++ rs.map GenRet.at_))
    (hF : FuncCode L fstart fend nptr (outs.map Prod.fst) (emBody L cpc n chk ini fin (genInits rs) (genItems (maskBits mask) rs))) (hback : back < 2 ^ 32) {s : Mem} (hm : s (cpc + 352) = pmod .set)
    (hi : s (chk + 4) = BitVec.ofNat 32 ini) (hkeep : ∀ y ∈ [cpc + 348, cpc + 352, chk + 4], y ∉ nptr :: outs.map (fun r => r.1 + 344))
    (hcr : cpAddr ∉ outs.map Prod.snd ++ outs.map (fun r => r.1 + 4)) (hchr : chk + 4 ∉ outs.map Prod.snd ++ outs.map (fun r => r.1 + 4))
    (hp : ¬ L.priv (epdAddr (src.valM s))) (hn : epdAddr (src.valM s) ∉ cpAddr :: nptr :: outs.map (fun r => r.1 + 344) ++ rs.map GenRet.at_) :
    Does L (.prim (CallRel L fend nptr back (emBody L cpc n chk ini fin (genInits rs) (genItems (maskBits mask) rs)) outs [(cpAddr, src)])) s fun s' =>
      (∀ o ∈ outs, ∀ r ∈ rs, r.at_ = o.1 + 348 → s' o.2 = if s (epdAddr (src.valM s)) = 0 then 0 else r.init + bitSum (s (epdAddr (src.valM s))) r.f (maskBits mask)) ∧
      s' cpAddr = s (cpc + 348) ∧ s' (chk + 4) = BitVec.ofNat 32 ini ∧ Only (callOnly nptr outs [(cpAddr, src)] ((chk + 4) :: cpBackScr cpc ++ rs.map GenRet.at_)) s s' := by
  have e := genInits_fst rs
  have hnc := hk.ncp
  have hnk := hch.nk
  have hc1 := hch.ncp
  simp only [List.mem_cons, List.not_mem_nil, or_false, not_or] at hnc hnk
  simp only [List.cons_append, List.mem_cons, List.mem_append, not_or] at hn
  have hH := gen_hyp (maskBits_lt mask) hcp hnd hc
  refine Does.mono (C31_does hw hO hF hback (Q := fun s2 => (∀ p ∈ genInits rs, s2 p.1 = if s (epdAddr (src.valM s)) = 0 then 0 else p.2 + sumBitsC (s (epdAddr (src.valM s))) p.1 (genItems (maskBits mask) rs)) ∧
    s2 cpAddr = s (cpc + 348) ∧ s2 (chk + 4) = BitVec.ofNat 32 ini) ?_) ?_
  · intro s1 e1 e2
    have ec : s1 cpAddr = src.valM s := e1 (cpAddr, src) (by simp)
    have ek : ∀ x, x ≠ cpAddr → x ∉ nptr :: outs.map (fun r => r.1 + 344) → s1 x = s x := fun x h1 h2 => e2 x (by
      simp only [List.map_cons, List.map_nil, List.mem_cons, List.mem_append, List.not_mem_nil, or_false, not_or] at h2 ⊢; exact ⟨h2.1, h2.2, h1⟩)
    have hd := emBody_does (n := n) (fin := fin) hH hk hch (s := s1) (by rw [ek _ (by omega) (hkeep _ (by simp)), hm]) (by rw [ek _ hch.ncp (hkeep _ (by simp)), hi]) (by rw [ec]; exact hp)
      (by rw [ec, e]; exact hn.2.2.2) (by rw [ec]; exact hn.1)
    refine Wp.mono hd.wp ?_
    rintro o s2 ⟨rfl, g1, g2, g3, g4⟩
    rw [ec, ek _ hn.1 (by simp only [List.mem_cons, not_or]; exact ⟨hn.2.1, hn.2.2.1⟩)] at g1
    rw [e] at g4
    exact ⟨Or.inl rfl, ⟨g1, by rw [g2, ek _ (by omega) (hkeep _ (by simp))], g3⟩, g4⟩
  · rintro s' ⟨⟨s2, ⟨g1, g2, g2'⟩, g3, g4⟩, g5⟩
    refine ⟨fun o ho' r hr er => ?_, ?_, ?_, g5⟩
    · rw [g3 o ho', ← er, g1 (r.at_, r.init) (List.mem_map_of_mem (f := fun r : GenRet => (r.at_, r.init)) hr), gen_sum _ _ hr hnd]
    · rw [g4 _ hcr, g2]
    · rw [g4 _ hchr, g2']

end Eud.SC
