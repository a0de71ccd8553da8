import Verif.Lib.Read
import Verif.Lib.CurPl
import Verif.Lib.Switch
/-
Common parts of the memory routines (memio/*.py): running a single variable, conditions and actions relative to the current player,
chains of triggers that test one bit each, and `EUDSwitch` as a statement.
-/

namespace Eud.SC

/-! ## `VProc` of one variable -/

/-- The trigger of a variable whose dwords are visible runs, and control goes on to `n`. -/
def PvRel (L : Layout) (v M n : Nat) (s s' : Mem) : Prop :=
  ∃ (md : Mod) (D : Dst), s (v + 352) = pmod md ∧ dstOf (s (v + 344)) 0 = some D ∧ L.cell (D.addr s) ∧ D.addr s ≠ v + 4 ∧ s (v + 4) = BitVec.ofNat 32 n ∧
    s' = s.set (D.addr s) (modify md (s (D.addr s)) (s (v + 348)) (BitVec.ofNat 32 M))

theorem pv_code {L : Layout} (hw : L.Wf) {v M n : Nat} (hv : PVar L v M) (hn : n < 2 ^ 32) {r b k : Nat} : Code L r b k (.prim (PvRel L v M n)) v n := by
  refine .prim ?_
  rintro s s' ⟨md, D, h1, h2, h3, h4, h5, rfl⟩
  have h := Layout.Runs.pvarD hw hv h1 h2 h3
  rwa [set_ne (Ne.symm h4), h5, BitVec.toNat_ofNat, Nat.mod_eq_of_lt hn] at h

/-- eudv.py:666-685 `VProc(v, acts)`: a trigger with the given actions and the next pointer of `v`, then `v`; it goes on at `n`. -/
def vproc (L : Layout) (v M n : Nat) (acts : List PA) : Stmt := .seq (.trig [] (acts ++ [aMem (v + 4) .set (BitVec.ofNat 32 n)])) (.prim (PvRel L v M n))

theorem vproc_code {L : Layout} (hw : L.Wf) {v M n t : Nat} {acts : List PA} (hv : PVar L v M) (hn : n < 2 ^ 32)
    (hp : PlacedA (t + 328) (acts ++ [aMem (v + 4) .set (BitVec.ofNat 32 n)]))
    (hb : (⟨t, ⟨[], (acts ++ [aMem (v + 4) .set (BitVec.ofNat 32 n)]).map PA.a⟩, some v, false⟩ : SBlk) ∈ L.P.blks) {r b k : Nat} : Code L r b k (vproc L v M n acts) t n :=
  .seq (.trig (cs := []) trivial hp hb) (pv_code hw hv hn)

/-- The effect, for a destination that is a known dword. -/
theorem vproc_does {L : Layout} {v M n : Nat} (hv : PVar L v M) {acts : List PA} {s : Mem} (ha : ActsOk L acts s) {md : Mod} {d : Nat} (h1 : runPA acts s (v + 352) = pmod md)
    (h2 : runPA acts s (v + 344) = epd d) (he : EpdOK d) (hc : L.cell d) (hd : d ≠ v + 4) {Q : Mem → Prop}
    (hq : Q (((runPA acts s).set (v + 4) (BitVec.ofNat 32 n)).set d (modify md (runPA acts s d) (runPA acts s (v + 348)) (BitVec.ofNat 32 M)))) :
    Does L (vproc L v M n acts) s Q := by
  refine Does.seq (Does.acts (ActsOk.append.2 ⟨ha, actsOk_mem hv.nxt trivial⟩) ?_)
  rw [runPA_append]
  simp only [runPA_cons, runPA_nil, aMem_run, arith]
  generalize runPA acts s = s1 at *
  refine Does.prim ⟨md, .mem d, ?_, ?_, hc, hd, ?_, rfl⟩ ?_
  · rw [set_ne (by omega), h1]
  · rw [set_ne (by omega), h2]; exact dstOf_epd he
  · rw [set_eq]
  · rw [show Dst.addr _ (.mem d) = d from rfl, set_ne (show v + 348 ≠ v + 4 by omega), set_ne hd]
    exact hq

/-- The same for a variable without a mask. -/
theorem vproc_full {L : Layout} {v n : Nat} (hv : PVar L v) {acts : List PA} {s : Mem} (ha : ActsOk L acts s) {md : Mod} {d : Nat} (h1 : runPA acts s (v + 352) = pmod md)
    (h2 : runPA acts s (v + 344) = epd d) (he : EpdOK d) (hc : L.cell d) (hd : d ≠ v + 4) {Q : Mem → Prop}
    (hq : Q (((runPA acts s).set (v + 4) (BitVec.ofNat 32 n)).set d (arith md (runPA acts s d) (runPA acts s (v + 348))))) :
    Does L (vproc L v 0xFFFFFFFF n acts) s Q := by
  refine vproc_does hv ha h1 h2 he hc hd ?_
  rw [show BitVec.ofNat 32 0xFFFFFFFF = (0xFFFFFFFF : W) from rfl, modify_full]
  exact hq

/-- modcurpl.py:37-42 `f_setcurpl2cpcache()` -/
def cpBack (L : Layout) (cpc n : Nat) : Stmt := vproc L cpc 0xFFFFFFFF n [aMem (cpc + 344) .set (epd cpAddr)]

/-- The dwords that `f_setcurpl2cpcache` may change. -/
def cpBackScr (cpc : Nat) : List Nat := [cpc + 4, cpc + 344, cpAddr]

theorem cpBack_does {L : Layout} {cpc n : Nat} (hv : PVar L cpc) (hcp : L.cell cpAddr) (hn : cpAddr ∉ [cpc + 4, cpc + 344, cpc + 348]) {s : Mem} (hm : s (cpc + 352) = pmod .set) :
    Does L (cpBack L cpc n) s fun s' => s' cpAddr = s (cpc + 348) ∧ Only (cpBackScr cpc) s s' := by
  simp only [List.mem_cons, List.not_mem_nil, or_false, not_or] at hn
  unfold cpBack
  refine vproc_full (acts := [aMem (cpc + 344) .set (epd cpAddr)]) (s := s) hv (d := cpAddr) (md := .set) (actsOk_mem hv.dst trivial) ?_ ?_ epdOK_cp hcp hn.1 ⟨?_, ?_⟩
  · simp only [runPA_cons, runPA_nil, aMem_run, get_set]; rw [if_neg (by omega), hm]
  · simp only [runPA_cons, runPA_nil, aMem_run, get_set, if_true, arith]
  · simp only [runPA_cons, runPA_nil, aMem_run, get_set, if_true, arith]; rw [if_neg (by omega)]
  · intro x hx
    simp only [cpBackScr, List.mem_cons, List.not_mem_nil, or_false, not_or] at hx
    simp only [runPA_cons, runPA_nil, aMem_run, get_set, arith]
    grind

/-! ## Conditions and actions relative to the current player -/

/-- `DeathsX(CP, AtLeast, 1, u, 1 << i)` -/
def cpBit (u : Nat) (i : Nat) : PC := ⟨.check (some (.cp u)) .atLeast (some 1) (some (pow2 i)), none⟩

theorem cpAt0 (s : Mem) : Dst.addr s (.cp 0) = epdAddr (s cpAddr) := by
  simp only [Dst.addr, epdAddr, BitVec.ofNat_eq_ofNat, BitVec.toNat_ofNat, Nat.zero_mod, Nat.mul_zero, Nat.add_zero]

theorem cpBit_holds (s : Mem) {u : Nat} {i : Nat} (hi : i < 32) : (cpBit u i).holds s = (s (Dst.addr s (.cp u))).getLsbD i := by
  simp only [PC.holds, cpBit, SCnd.res, Option.getD_some, Cnd.holds]
  exact pow2_bit _ hi

theorem cpBit_ok {L : Layout} {s : Mem} {u : Nat} (h : ¬ L.priv (Dst.addr s (.cp u))) (i : Nat) : (cpBit u i).Ok L s := ⟨trivial, h⟩

/-- `SetDeathsX(CP, md, v, 0, mask)` -/
def aCp (md : Mod) (v mask : W) : PA := ⟨⟨some (.cp 0), md, some v, some mask⟩, none⟩
/-- The same with its value filled in before: the action is at `p`. -/
def aCpV (md : Mod) (mask : W) (p : Nat) : PA := ⟨⟨some (.cp 0), md, none, some mask⟩, some p⟩

theorem aCp_run (s : Mem) (md : Mod) (v mask : W) : (aCp md v mask).run s = s.set (epdAddr (s cpAddr)) (modify md (s (epdAddr (s cpAddr))) v mask) := by
  simp only [PA.run, aCp, SAct.res, Option.getD_some, Act.apply, cpAt0]

theorem aCpV_run (s : Mem) (md : Mod) (mask : W) (p : Nat) :
    (aCpV md mask p).run s = s.set (epdAddr (s cpAddr)) (modify md (s (epdAddr (s cpAddr))) (s (p + 20)) mask) := by
  simp only [PA.run, aCpV, SAct.res, Option.getD_some, Option.getD_none, Act.apply, cpAt0]

theorem actsOk_cp {L : Layout} {s : Mem} (h : L.cell (epdAddr (s cpAddr))) {md : Mod} {v mask : W} {ps : List PA} (hr : ActsOk L ps ((aCp md v mask).run s)) :
    ActsOk L (aCp md v mask :: ps) s := ⟨(by intro hh; cases hh), by simpa only [aCp, SAct.res, Option.getD_some, cpAt0] using h, hr⟩

theorem actsOk_cpV {L : Layout} {s : Mem} (h : L.cell (epdAddr (s cpAddr))) {md : Mod} {mask : W} {p : Nat} {ps : List PA} (hr : ActsOk L ps ((aCpV md mask p).run s)) :
    ActsOk L (aCpV md mask p :: ps) s := ⟨(by intro hh; cases hh), by simpa only [aCpV, SAct.res, Option.getD_some, Option.getD_none, cpAt0] using h, hr⟩

/-! ## Bit tests -/

/-- A trigger that tests bit `t.1` at the current player, and adds constants to dwords. -/
def bitTrig (u : Nat) (t : Nat × List (Nat × W)) : Stmt := .trig [cpBit u t.1] (t.2.map fun a => aMem a.1 .add a.2)

/-- Adding the listed constants. -/
def addC : List (Nat × W) → Mem → Mem
  | [], s => s
  | a :: l, s => addC l (s.set a.1 (s a.1 + a.2))

/-- The constants for `x`, added up. -/
def sumC (x : Nat) : List (Nat × W) → W
  | [] => 0
  | a :: l => (if a.1 = x then a.2 else 0) + sumC x l

theorem addC_get (x : Nat) : ∀ (l : List (Nat × W)) (s : Mem), addC l s x = s x + sumC x l
  | [], s => by simp [addC, sumC]
  | a :: l, s => by
    simp only [addC, sumC]
    rw [addC_get x l, get_set]
    by_cases h : x = a.1
    · subst h; simp [BitVec.add_assoc]
    · rw [if_neg h, if_neg (Ne.symm h)]; simp

theorem runPA_addC : ∀ (l : List (Nat × W)) (s : Mem), runPA (l.map fun a => aMem a.1 .add a.2) s = addC l s
  | [], _ => rfl
  | a :: l, s => by
    rw [List.map_cons, runPA_cons, aMem_run, runPA_addC l]
    rfl

theorem actsOk_addC {L : Layout} : ∀ (l : List (Nat × W)) (s : Mem), (∀ a ∈ l, L.cell a.1) → ActsOk L (l.map fun a => aMem a.1 .add a.2) s
  | [], _, _ => trivial
  | a :: l, s, h => actsOk_mem (h a (by simp)) (actsOk_addC l _ fun b hb => h b (by simp [hb]))

/-- What a list of tests adds to `x` when the dword is `w`. -/
def sumBitsC (w : W) (x : Nat) : List (Nat × List (Nat × W)) → W
  | [] => 0
  | t :: l => (if w.getLsbD t.1 then sumC x t.2 else 0) + sumBitsC w x l

/-- **A chain of bit tests** of the dword at the current player, unit `u`. -/
theorem bits_does {L : Layout} {u : Nat} {s : Mem} (hp : ¬ L.priv (Dst.addr s (.cp u))) (ts : List (Nat × List (Nat × W)))
    (h : ∀ t ∈ ts, t.1 < 32 ∧ ∀ a ∈ t.2, L.cell a.1 ∧ a.1 ≠ cpAddr ∧ a.1 ≠ Dst.addr s (.cp u)) :
    Does L (.seqs (ts.map (bitTrig u))) s fun s' => ∀ x, s' x = s x + sumBitsC (s (Dst.addr s (.cp u))) x ts := by
  refine Does.mono (Does.chain (bitTrig u) (fun k s1 => (∀ x, s1 x + sumBitsC (s (Dst.addr s (.cp u))) x k = s x + sumBitsC (s (Dst.addr s (.cp u))) x ts) ∧
    s1 cpAddr = s cpAddr ∧ s1 (Dst.addr s (.cp u)) = s (Dst.addr s (.cp u))) ts s ⟨fun _ => rfl, rfl, rfl⟩ ?_) ?_
  · rintro t k s1 ht ⟨h1, h2, h3⟩
    have ea : Dst.addr s1 (.cp u) = Dst.addr s (.cp u) := by simp only [Dst.addr, h2]
    obtain ⟨t1, t2⟩ := h t ht
    refine Does.trig (by rintro p hp'; rw [List.mem_singleton.1 hp']; exact cpBit_ok (by rw [ea]; exact hp) _) (fun hh => ⟨actsOk_addC _ _ fun a ha => (t2 a ha).1, ?_⟩) (fun hh => ?_)
    · simp only [holdsAll_cons, holdsAll_nil, Bool.and_true, cpBit_holds s1 t1, ea, h3] at hh
      have z : ∀ x, (∀ a ∈ t.2, a.1 ≠ x) → sumC x t.2 = 0 := by
        intro x
        generalize t.2 = l
        intro hx
        induction l with
        | nil => rfl
        | cons a l ih => simp only [sumC, if_neg (hx a (by simp)), ih fun b hb => hx b (by simp [hb])]; simp
      rw [runPA_addC]
      refine ⟨fun x => ?_, ?_, ?_⟩
      · rw [addC_get, ← h1 x]
        simp only [sumBitsC, hh, if_true, BitVec.add_assoc]
      · rw [addC_get, z _ fun a ha => (t2 a ha).2.1, h2]; simp
      · rw [addC_get, z _ fun a ha => (t2 a ha).2.2, h3]; simp
    · simp only [holdsAll_cons, holdsAll_nil, Bool.and_true, cpBit_holds s1 t1, ea, h3] at hh
      refine ⟨fun x => ?_, h2, h3⟩
      rw [← h1 x]
      simp [sumBitsC, hh]
  · rintro s' ⟨h1, -⟩ x
    have := h1 x
    simpa [sumBitsC] using this

/-! ## `EUDSwitch` -/

/-- `EUDSwitch(v) .. EUDEndSwitch()` whose cases all end with `EUDBreak()` and that has no default case. -/
def SwRel (L : Layout) (val : Mem → W) (cases : List (W × Stmt)) (s s' : Mem) : Prop :=
  match cases.lookup (val s) with
  | none => s' = s
  | some st => Exec L st s .brk s'

theorem lookup_map {α β γ : Type} [BEq α] (f : β → γ) : ∀ (l : List (α × β)) (a : α), (l.map fun p => (p.1, f p.2)).lookup a = (l.lookup a).map f
  | [], _ => rfl
  | (k, b) :: l, a => by
    simp only [List.map_cons, List.lookup_cons]
    cases a == k with
    | true => rfl
    | false => exact lookup_map f l a

theorem lookup_mem' {β : Type} : ∀ {l : List (W × β)} {a : W} {b : β}, l.lookup a = some b → (a, b) ∈ l
  | [], _, _, h => by simp at h
  | (k, c) :: l, a, b, h => by
    rw [List.lookup_cons] at h
    cases e : a == k with
    | true =>
      rw [e] at h
      cases h
      rw [beq_iff_eq] at e
      subst e
      exact List.mem_cons_self ..
    | false => rw [e] at h; exact List.mem_cons_of_mem _ (lookup_mem' h)

/-- The code: the dispatcher finds the case (C26), and the cases are in place. -/
theorem sw_code {L : Layout} (hw : L.Wf) {val : Mem → W} {cases : List (W × Nat × Stmt)} {e x r k : Nat}
    (hsw : ∀ s, L.Runs s e s (caseOf (cases.map fun c => (c.1, c.2.1)) x (val s))) (hb : ∀ c ∈ cases, ∃ n r' k', Code L r' x k' c.2.2 c.2.1 n) {b : Nat} :
    Code L r b k (.prim (SwRel L val (cases.map fun c => (c.1, c.2.2)))) e x := by
  refine .prim ?_
  intro s s' h
  have h1 := hsw s
  unfold SwRel at h
  unfold caseOf at h1
  rw [lookup_map Prod.fst] at h1
  rw [lookup_map Prod.snd] at h
  cases hl : cases.lookup (val s) with
  | none =>
    rw [hl] at h h1
    simp only [Option.map_none, Option.getD_none] at h h1
    subst h
    exact h1
  | some c =>
    rw [hl] at h h1
    simp only [Option.map_some, Option.getD_some] at h h1
    obtain ⟨n, r', k', hn⟩ := hb _ (lookup_mem' hl)
    exact h1.trans (C25_structured hw h hn)

theorem Does.sw {L : Layout} {val : Mem → W} {cases : List (W × Stmt)} {s : Mem} {Q : Mem → Prop} (h0 : cases.lookup (val s) = none → Q s)
    (h1 : ∀ st, cases.lookup (val s) = some st → Wp L st s fun o s' => o = .brk ∧ Q s') : Does L (.prim (SwRel L val cases)) s Q := by
  cases hl : cases.lookup (val s) with
  | none => exact Does.prim (s' := s) (by unfold SwRel; rw [hl]) (h0 hl)
  | some st =>
    obtain ⟨o, s', g1, rfl, g2⟩ := h1 st hl
    exact Does.prim (s' := s') (by unfold SwRel; rw [hl]; exact g1) g2

end Eud.SC
