import Verif.Machine.PVar
import Verif.Lib.Trigger
import Verif.Machine.Call
import Verif.Machine.Mul
/-
C35: the current player and its cache (core/curpl.py, memio/modcurpl.py).

`cpc` is the variable `_curpl_var` (curpl.py:11), `cnd` is the condition `_curpl_checkcond` (curpl.py:12-18), which sits in `f_getcurpl`
and compares the current player with a constant that all operations keep up to date.
-/

namespace Eud.SC

/-- The dwords of the cache. -/
structure CpOk (L : Layout) (cpc cnd : Nat) : Prop where
  pv : PVar L cpc
  lt : cpc < 2 ^ 32
  ev : EpdOK (cpc + 348)
  cc : L.cell (cnd + 8)
  ec : EpdOK (cnd + 8)
  cp : L.cell cpAddr
  nd : [cpc + 4, cpc + 344, cpc + 348, cpc + 352, cnd + 8, cpAddr].Nodup

theorem epdOK_cp : EpdOK cpAddr := by decide

/-! ## `VProc(cpcache, ...)` -/

/-- The actions of `VProc(cpcache, [*pre, cpcache.SetDest(EPD(d)), *mid])` (eudv.py:666-685). -/
def cpActs (cpc d n : Nat) (pre mid : List PA) : List PA :=
  pre ++ aMem (cpc + 344) .set (epd d) :: (mid ++ [aMem (cpc + 4) .set (BitVec.ofNat 32 n)])

/-- The trigger. -/
structure CpVP (L : Layout) (cpc d t n : Nat) (pre mid : List PA) : Prop where
  blk : (⟨t, ⟨[], (cpActs cpc d n pre mid).map PA.a⟩, some cpc, false⟩ : SBlk) ∈ L.P.blks
  pl : PlacedA (t + 328) (cpActs cpc d n pre mid)
  lt : n < 2 ^ 32

/-- The memory afterwards: the cached value has gone to `d`. -/
def cpRes (cpc d n : Nat) (s : Mem) : Mem := ((s.set (cpc + 344) (epd d)).set (cpc + 4) (BitVec.ofNat 32 n)).set d (s (cpc + 348))

/-- eudv.py:230-236 `cpcache.SetModifier(SetTo)`, with the dword that it changes in plain sight. -/
def cpSetTo (cpc : Nat) : PA := aMemX (cpc + 352) .set 0x07000000 0xFF000000

theorem modify_keep : modify .set (pmod .set) 0x07000000 0xFF000000 = pmod .set := by decide +kernel

theorem cpSetTo_run {cpc : Nat} {s : Mem} (h : s (cpc + 352) = pmod .set) : (cpSetTo cpc).run s = s := by
  unfold cpSetTo
  rw [aMemX_run, h, modify_keep, ← h, set_self]

/-- `pre` is any list of actions, `mid` is nothing or `SetModifier(SetTo)`. -/
theorem CpVP.runs {L : Layout} (hw : L.Wf) {cpc cnd d t n : Nat} {pre mid : List PA} (hk : CpOk L cpc cnd) (hC : CpVP L cpc d t n pre mid)
    (hmid : mid = [] ∨ mid = [cpSetTo cpc]) (he : EpdOK d) (hd : L.cell d) (hdn : d ≠ cpc + 4) {s : Mem} (ha : ActsOk L pre s) (hm : runPA pre s (cpc + 352) = pmod .set) :
    L.Runs s t (cpRes cpc d n (runPA pre s)) n := by
  have nd := hk.nd
  simp only [List.nodup_cons, List.mem_cons, not_or, List.not_mem_nil, not_false_eq_true, List.nodup_nil, and_true] at nd
  have hrun : runPA (cpActs cpc d n pre mid) s = ((runPA pre s).set (cpc + 344) (epd d)).set (cpc + 4) (BitVec.ofNat 32 n) := by
    unfold cpActs
    rw [runPA_append, runPA_cons, runPA_append]
    rcases hmid with rfl | rfl
    · simp only [runPA_nil, runPA_cons, aMem_run, arith]
    · simp only [runPA_cons, runPA_nil]
      rw [cpSetTo_run (cpc := cpc) (s := PA.run (runPA pre s) (aMem (cpc + 344) .set (epd d))) (by rw [aMem_run, set_ne (by omega), hm])]
      simp only [runPA_nil, runPA_cons, aMem_run, arith]
  have hok : ActsOk L (cpActs cpc d n pre mid) s := by
    refine ActsOk.append.2 ⟨ha, actsOk_mem hk.pv.dst ?_⟩
    rcases hmid with rfl | rfl
    · exact actsOk_mem hk.pv.nxt trivial
    · exact actsOk_memX hk.pv.md (actsOk_mem hk.pv.nxt trivial)
  have h1 := C25_structured hw (.trig (cs := []) (s := s) (by simp) (fun _ => hok)) (.trig (r := 0) (b := 0) (k := 0) (cs := []) trivial hC.pl hC.blk)
  simp only [holdsAll_nil, if_true, hrun, Out.dest] at h1
  generalize runPA pre s = s0 at h1 hm ⊢
  have h2 := Layout.Runs.pvar hk.pv (s := (s0.set (cpc + 344) (epd d)).set (cpc + 4) (BitVec.ofNat 32 n)) (by rw [set_ne (by grind), set_ne (by grind), hm])
    (by rw [set_ne (by grind), set_eq]) he hd
  rw [set_ne (show cpc + 348 ≠ cpc + 4 by omega), set_ne (show cpc + 348 ≠ cpc + 344 by omega), set_ne (Ne.symm hdn), set_eq, BitVec.toNat_ofNat,
    Nat.mod_eq_of_lt hC.lt] at h2
  exact h1.trans h2

/-- What such a trigger does, as a statement. -/
def CpRel (L : Layout) (cpc d n : Nat) (pre : List PA) (s s' : Mem) : Prop :=
  ActsOk L pre s ∧ runPA pre s (cpc + 352) = pmod .set ∧ s' = cpRes cpc d n (runPA pre s)

theorem CpVP.code {L : Layout} (hw : L.Wf) {cpc cnd d t n : Nat} {pre mid : List PA} (hk : CpOk L cpc cnd) (hC : CpVP L cpc d t n pre mid)
    (hmid : mid = [] ∨ mid = [cpSetTo cpc]) (he : EpdOK d) (hd : L.cell d) (hdn : d ≠ cpc + 4) {r b k : Nat} : Code L r b k (.prim (CpRel L cpc d n pre)) t n := by
  refine .prim ?_
  rintro s s' ⟨h1, h2, rfl⟩
  exact hC.runs hw hk hmid he hd hdn h1 h2

/-! ## Setting the current player -/

/-- curpl.py:21-36 `SetCurrentPlayer(p)` (`md = SetTo`), `AddCurrentPlayer(p)` (`md = Add`): three actions. -/
def setCpActs (cpc cnd : Nat) (md : Mod) (p : W) : List PA := [aMem (cpc + 348) md p, aMem (cnd + 8) md p, aMem cpAddr md p]

/-- All three places get the new value. -/
def cpAll (cpc cnd : Nat) (md : Mod) (w : W) (s : Mem) : Mem :=
  ((s.set (cpc + 348) (arith md (s (cpc + 348)) w)).set (cnd + 8) (arith md (s (cnd + 8)) w)).set cpAddr (arith md (s cpAddr) w)

theorem setCp_does {L : Layout} {cpc cnd : Nat} (hk : CpOk L cpc cnd) (md : Mod) (p : W) (s : Mem) :
    Does L (.trig [] (setCpActs cpc cnd md p)) s (fun s' => s' = cpAll cpc cnd md p s) := by
  have nd := hk.nd
  simp only [List.nodup_cons, List.mem_cons, not_or, List.not_mem_nil, not_false_eq_true, List.nodup_nil, and_true] at nd
  refine Does.acts (actsOk_mem hk.pv.val (actsOk_mem hk.cc (actsOk_mem hk.cp trivial))) ?_
  simp only [setCpActs, runPA_cons, runPA_nil, aMem_run, cpAll]
  funext x
  simp only [get_set]
  grind

/-- modcurpl.py:18-34 `f_setcurpl(v)` for a variable: two triggers at `t1`, `t2`. -/
structure SetCpV (L : Layout) (cpc cnd v t1 t2 n : Nat) : Prop where
  b1 : (⟨t1, ⟨[], ([.dest v (epd (cpc + 348)), .modi v .set, .vnext v t2] : List QA).map QA.act⟩, some v, false⟩ : SBlk) ∈ L.P.blks
  b2 : (⟨t2, ⟨[], ([.dest v (epd (cnd + 8)), .cell (aMem (cpc + 344) .set (epd cpAddr)), .vnext v cpc, .cell (aMem (cpc + 4) .set (BitVec.ofNat 32 n))] : List QA).map QA.act⟩,
    some v, false⟩ : SBlk) ∈ L.P.blks
  l2 : t2 < 2 ^ 32
  ln : n < 2 ^ 32
  hv : v ∈ L.P.vars
  nv : v + 348 ∉ [cpc + 4, cpc + 344, cpc + 348, cpc + 352, cnd + 8, cpAddr]

/-- `f_setcurpl(v)`: all three places get the value of `v`. -/
theorem SetCpV.runs {L : Layout} (hw : L.Wf) {cpc cnd v t1 t2 n : Nat} (hk : CpOk L cpc cnd) (hC : SetCpV L cpc cnd v t1 t2 n) {s : Mem}
    (hm : s (cpc + 352) = pmod .set) :
    L.Runs s t1 (((cpAll cpc cnd .set (s (v + 348)) s).set (cpc + 344) (epd cpAddr)).set (cpc + 4) (BitVec.ofNat 32 n)) n := by
  have nd := hk.nd
  have nv := hC.nv
  simp only [List.nodup_cons, List.mem_cons, not_or, List.not_mem_nil, not_false_eq_true, List.nodup_nil, and_true] at nd nv
  have st1 := Layout.Steps.trig hw (cs := []) (as := [.dest v (epd (cpc + 348)), .modi v .set, .vnext v t2]) (n := v) hC.b1 trivial trivial (q := ⟨[], KB.none, s⟩)
    (by simp) (fun _ => ⟨hC.hv, hC.hv, ⟨hC.hv, hC.l2⟩, trivial⟩) rfl
  simp only [holdsAll_nil, if_true, runQA, QA.run] at st1
  generalize hK1 : KB.up _ v _ = K1 at st1
  have k1 : K1 v = ⟨some t2, some (epd (cpc + 348)), some .set⟩ := by rw [← hK1]; simp only [KB.up_eq]
  clear hK1
  have st2 := Layout.Steps.var hw (q := ⟨[], K1, s⟩) hC.hv (n := t2) (by simp only [k1]) hC.l2 (w := epd (cpc + 348)) (by simp only [k1]) (dstOf_epd hk.ev) hk.pv.val (md := .set) (by simp only [k1])
  simp only [Dst.addr, arith] at st2
  generalize hs1 : s.set (cpc + 348) (s (v + 348)) = s1 at st2
  have st3 := Layout.Steps.trig hw (cs := [])
    (as := [.dest v (epd (cnd + 8)), .cell (aMem (cpc + 344) .set (epd cpAddr)), .vnext v cpc, .cell (aMem (cpc + 4) .set (BitVec.ofNat 32 n))]) (n := v) hC.b2 trivial
    ⟨aMem_static _ _ _, aMem_static _ _ _, trivial⟩ (q := ⟨[], K1, s1⟩) (by simp)
    (fun _ => ⟨hC.hv, ⟨fun h => (by cases h), hk.pv.dst⟩, ⟨hC.hv, hk.lt⟩, ⟨fun h => (by cases h), hk.pv.nxt⟩, trivial⟩) rfl
  simp only [holdsAll_nil, if_true, runQA, QA.run, aMem_run, arith] at st3
  generalize hK2 : KB.up _ v _ = K2 at st3
  have k2 : K2 v = ⟨some cpc, some (epd (cnd + 8)), some .set⟩ := by rw [← hK2]; simp only [KB.up_eq, k1]
  clear hK2
  generalize hs2 : (s1.set (cpc + 344) (epd cpAddr)).set (cpc + 4) (BitVec.ofNat 32 n) = s2 at st3
  have st4 := Layout.Steps.var hw (q := ⟨[], K2, s2⟩) hC.hv (n := cpc) (by simp only [k2]) hk.lt (w := epd (cnd + 8)) (by simp only [k2]) (dstOf_epd hk.ec) hk.cc (md := .set) (by simp only [k2])
  simp only [Dst.addr, arith] at st4
  generalize hs3 : s2.set (cnd + 8) (s2 (v + 348)) = s3 at st4
  have st5 := Layout.Steps.pvar hk.pv (K := K2) (s := s3) (md := .set) (d := cpAddr) (n := n) (by subst hs3 hs2 hs1; simp only [get_set]; grind)
    (by subst hs3 hs2 hs1; simp only [get_set]; grind) epdOK_cp hk.cp (by grind) (by subst hs3 hs2 hs1; simp only [get_set]; grind) hC.ln
  have := ((((st1.trans st2).trans st3).trans st4).trans st5).runs hw (by simp)
  have e : s3.set cpAddr (arith .set (s3 cpAddr) (s3 (cpc + 348))) =
      ((cpAll cpc cnd .set (s (v + 348)) s).set (cpc + 344) (epd cpAddr)).set (cpc + 4) (BitVec.ofNat 32 n) := by
    subst hs3 hs2 hs1
    funext x
    simp only [cpAll, get_set, arith]
    grind
  rwa [e] at this

/-- modcurpl.py:77-88 `f_addcurpl(v)` for a variable: three triggers. -/
structure AddCpV (L : Layout) (cpc cnd v t1 t2 t3 n : Nat) : Prop where
  b1 : (⟨t1, ⟨[], ([.dest v (epd (cpc + 348)), .modi v .add, .vnext v t2] : List QA).map QA.act⟩, some v, false⟩ : SBlk) ∈ L.P.blks
  b2 : (⟨t2, ⟨[], ([.dest v (epd (cnd + 8)), .vnext v t3] : List QA).map QA.act⟩, some v, false⟩ : SBlk) ∈ L.P.blks
  b3 : (⟨t3, ⟨[], ([.dest v (epd cpAddr), .vnext v n] : List QA).map QA.act⟩, some v, false⟩ : SBlk) ∈ L.P.blks
  l2 : t2 < 2 ^ 32
  l3 : t3 < 2 ^ 32
  ln : n < 2 ^ 32
  hv : v ∈ L.P.vars
  nv : v + 348 ∉ [cpc + 4, cpc + 344, cpc + 348, cpc + 352, cnd + 8, cpAddr]

/-- `f_addcurpl(v)`: the value of `v` is added at all three places. -/
theorem AddCpV.runs {L : Layout} (hw : L.Wf) {cpc cnd v t1 t2 t3 n : Nat} (hk : CpOk L cpc cnd) (hC : AddCpV L cpc cnd v t1 t2 t3 n) (s : Mem) :
    L.Runs s t1 (cpAll cpc cnd .add (s (v + 348)) s) n := by
  have nd := hk.nd
  have nv := hC.nv
  simp only [List.nodup_cons, List.mem_cons, not_or, List.not_mem_nil, not_false_eq_true, List.nodup_nil, and_true] at nd nv
  have st1 := Layout.Steps.trig hw (cs := []) (as := [.dest v (epd (cpc + 348)), .modi v .add, .vnext v t2]) (n := v) hC.b1 trivial trivial (q := ⟨[], KB.none, s⟩)
    (by simp) (fun _ => ⟨hC.hv, hC.hv, ⟨hC.hv, hC.l2⟩, trivial⟩) rfl
  simp only [holdsAll_nil, if_true, runQA, QA.run] at st1
  generalize hK1 : KB.up _ v _ = K1 at st1
  have k1 : K1 v = ⟨some t2, some (epd (cpc + 348)), some .add⟩ := by rw [← hK1]; simp only [KB.up_eq]
  clear hK1
  have st2 := Layout.Steps.var hw (q := ⟨[], K1, s⟩) hC.hv (n := t2) (by simp only [k1]) hC.l2 (w := epd (cpc + 348)) (by simp only [k1]) (dstOf_epd hk.ev) hk.pv.val (md := .add) (by simp only [k1])
  simp only [Dst.addr] at st2
  generalize hs1 : s.set (cpc + 348) (arith .add (s (cpc + 348)) (s (v + 348))) = s1 at st2
  have st3 := Layout.Steps.trig hw (cs := []) (as := [.dest v (epd (cnd + 8)), .vnext v t3]) (n := v) hC.b2 trivial trivial (q := ⟨[], K1, s1⟩)
    (by simp) (fun _ => ⟨hC.hv, ⟨hC.hv, hC.l3⟩, trivial⟩) rfl
  simp only [holdsAll_nil, if_true, runQA, QA.run] at st3
  generalize hK2 : KB.up _ v _ = K2 at st3
  have k2 : K2 v = ⟨some t3, some (epd (cnd + 8)), some .add⟩ := by rw [← hK2]; simp only [KB.up_eq, k1]
  clear hK2
  have st4 := Layout.Steps.var hw (q := ⟨[], K2, s1⟩) hC.hv (n := t3) (by simp only [k2]) hC.l3 (w := epd (cnd + 8)) (by simp only [k2]) (dstOf_epd hk.ec) hk.cc (md := .add) (by simp only [k2])
  simp only [Dst.addr] at st4
  generalize hs2 : s1.set (cnd + 8) (arith .add (s1 (cnd + 8)) (s1 (v + 348))) = s2 at st4
  have st5 := Layout.Steps.trig hw (cs := []) (as := [.dest v (epd cpAddr), .vnext v n]) (n := v) hC.b3 trivial trivial (q := ⟨[], K2, s2⟩)
    (by simp) (fun _ => ⟨hC.hv, ⟨hC.hv, hC.ln⟩, trivial⟩) rfl
  simp only [holdsAll_nil, if_true, runQA, QA.run] at st5
  generalize hK3 : KB.up _ v _ = K3 at st5
  have k3 : K3 v = ⟨some n, some (epd cpAddr), some .add⟩ := by rw [← hK3]; simp only [KB.up_eq, k2]
  clear hK3
  have st6 := Layout.Steps.var hw (q := ⟨[], K3, s2⟩) hC.hv (n := n) (by simp only [k3]) hC.ln (w := epd cpAddr) (by simp only [k3]) (dstOf_epd epdOK_cp) hk.cp (md := .add) (by simp only [k3])
  simp only [Dst.addr] at st6
  have := (((((st1.trans st2).trans st3).trans st4).trans st5).trans st6).runs hw (by simp)
  have e : s2.set cpAddr (arith .add (s2 cpAddr) (s2 (v + 348))) = cpAll cpc cnd .add (s (v + 348)) s := by
    subst hs2 hs1
    funext x
    simp only [cpAll, get_set, arith]
    grind
  rwa [e] at this

/-! ## Getting the current player -/

/-- The bits of `w` at the positions `l`, added up. -/
def bitAcc (w : W) : List Nat → W
  | [] => 0
  | i :: l => (if w.getLsbD i then pow2 i else 0) + bitAcc w l

theorem bitAcc_perm (w : W) {l k : List Nat} (h : l.Perm k) : bitAcc w l = bitAcc w k := by
  induction h with
  | nil => rfl
  | cons x _ ih => simp only [bitAcc, ih]
  | swap x y l => simp only [bitAcc]; rw [← BitVec.add_assoc, ← BitVec.add_assoc, BitVec.add_comm (if w.getLsbD y then _ else _)]
  | trans _ _ ih1 ih2 => exact ih1.trans ih2

theorem bitAcc_append (w : W) : ∀ (l k : List Nat), bitAcc w (l ++ k) = bitAcc w l + bitAcc w k
  | [], k => by simp [bitAcc]
  | i :: l, k => by rw [List.cons_append]; simp only [bitAcc]; rw [bitAcc_append w l k, BitVec.add_assoc]

theorem bitAcc_range (w : W) : ∀ n, n ≤ 32 → bitAcc w (List.range n) = BitVec.ofNat 32 (w.toNat % 2 ^ n)
  | 0, _ => by simp [bitAcc, Nat.mod_one]
  | n + 1, h => by
    rw [List.range_succ, bitAcc_append, bitAcc_range w n (by omega)]
    simp only [bitAcc, BitVec.ofNat_eq_ofNat, BitVec.add_zero]
    have hb : w.getLsbD n = decide (w.toNat / 2 ^ n % 2 = 1) := by rw [BitVec.getLsbD, Nat.testBit_eq_decide_div_mod_eq]
    have hm : w.toNat % 2 ^ (n + 1) = w.toNat % 2 ^ n + 2 ^ n * (w.toNat / 2 ^ n % 2) := Nat.mod_pow_succ
    rw [hm, BitVec.ofNat_add, hb]
    rcases Nat.mod_two_eq_zero_or_one (w.toNat / 2 ^ n) with e | e <;> rw [e]
    · simp
    · simp only [decide_true, if_true, Nat.mul_one]
      congr 1
      apply BitVec.eq_of_toNat_eq
      simp [pow2, BitVec.toNat_twoPow]

theorem bitAcc_all (w : W) {l : List Nat} (h : l.Perm (List.range 32)) : bitAcc w l = w := by
  rw [bitAcc_perm w h, bitAcc_range w 32 (by omega), Nat.mod_eq_of_lt w.isLt]
  simp

/-- modcurpl.py:45-60 `_f_updatecpcache`: `l` is the shuffled `range(32)`; the unit numbers that are chosen at random there only name the same dword
in another way, and the random bits of the flags are not looked at by the game. -/
def updCp (L : Layout) (cpc cnd : Nat) (l : List Nat) (n1 n2 : Nat) : Stmt :=
  .seq (.trig [] [aMem (cpc + 348) .set 0])
    (.seq (.seqs (l.map fun i => .trig [cMemX cpAddr .atLeast 1 (pow2 i)] [aMem (cpc + 348) .add (pow2 i)]))
      (.seq (.prim (CpRel L cpc (cnd + 8) n1 [])) (.prim (CpRel L cpc cpAddr n2 []))))

/-- modcurpl.py:63-75 `f_getcurpl`: its result `r0` comes from `SeqCompute([(r0, SetTo, cpcache)])` (eudfuncn.py:147-163). -/
def getCp (L : Layout) (cpc cnd r0 : Nat) (l : List Nat) (n1 n2 n3 : Nat) : Stmt :=
  .seq (.ite .skip [cMemV cpAddr .exactly cnd] .skip (updCp L cpc cnd l n1 n2)) (.seq (.prim (CpRel L cpc (r0 + 348) n3 [])) .ret)

/-- What is always so: the condition compares with the cached value, and the cache does assignments. -/
def CpInv (cpc cnd : Nat) (s : Mem) : Prop := s (cnd + 8) = s (cpc + 348) ∧ s (cpc + 352) = pmod .set

/-- The dwords of the cache. -/
def cpScr (cpc cnd : Nat) : List Nat := [cpc + 4, cpc + 344, cpc + 348, cnd + 8]

theorem updCp_does {L : Layout} {cpc cnd : Nat} (hk : CpOk L cpc cnd) {l : List Nat} (hl : l.Perm (List.range 32)) (n1 n2 : Nat) {s : Mem} (hm : s (cpc + 352) = pmod .set) :
    Does L (updCp L cpc cnd l n1 n2) s fun s' => s' cpAddr = s cpAddr ∧ s' (cpc + 348) = s cpAddr ∧ CpInv cpc cnd s' ∧ Only (cpScr cpc cnd) s s' := by
  have nd := hk.nd
  simp only [List.nodup_cons, List.mem_cons, not_or, List.not_mem_nil, not_false_eq_true, List.nodup_nil, and_true] at nd
  refine Does.seq (Does.acts (actsOk_mem hk.pv.val trivial) ?_)
  simp only [runPA_cons, runPA_nil, aMem_run, arith]
  refine Does.seq (Does.mono (Does.chain (α := Nat) _ (fun k s1 => (∀ i ∈ k, i < 32) ∧ s1 (cpc + 348) + bitAcc (s cpAddr) k = bitAcc (s cpAddr) l ∧ Only [cpc + 348] s s1) l _ ?_ ?_) ?_)
  · refine ⟨fun i hi => by simpa using hl.mem_iff.1 hi, by rw [set_eq]; simp, ?_⟩
    exact (Only.refl _ s).set (by simp) _
  · rintro i k s1 - ⟨h1, h2, h3⟩
    have ec : s1 cpAddr = s cpAddr := h3 _ (by simp; grind)
    refine Does.trig (by simpa using cMemX_ok hk.cp _ _ _ _) (fun hh => ⟨actsOk_mem hk.pv.val trivial, ?_⟩) (fun hh => ?_)
    · simp only [holdsAll_cons, holdsAll_nil, Bool.and_true, cMemX_holds, ec, pow2_bit _ (h1 i (by simp))] at hh
      refine ⟨fun j hj => h1 j (by simp [hj]), ?_, ?_⟩
      · simp only [runPA_cons, runPA_nil, aMem_run, arith, set_eq]
        rw [← h2]
        simp only [bitAcc, hh, if_true, BitVec.add_assoc]
      · simp only [runPA_cons, runPA_nil, aMem_run]
        exact h3.set (by simp) _
    · simp only [holdsAll_cons, holdsAll_nil, Bool.and_true, cMemX_holds, ec, pow2_bit _ (h1 i (by simp)), Bool.not_eq_true] at hh
      refine ⟨fun j hj => h1 j (by simp [hj]), ?_, h3⟩
      rw [← h2]
      simp [bitAcc, hh]
  · rintro s1 ⟨-, h2, h3⟩
    rw [bitAcc_all _ hl] at h2
    simp only [bitAcc, BitVec.ofNat_eq_ofNat, BitVec.add_zero] at h2
    have ec : s1 cpAddr = s cpAddr := h3 _ (by simp; grind)
    have em : s1 (cpc + 352) = pmod .set := by rw [h3 _ (by simp)]; exact hm
    refine Does.seq (Does.prim ⟨trivial, em, rfl⟩ (Does.prim ⟨trivial, ?_, rfl⟩ ?_))
    · simp only [runPA_nil, cpRes, get_set]; grind
    · refine ⟨?_, ?_, ⟨?_, ?_⟩, ?_⟩
      · simp only [runPA_nil, cpRes, get_set]; grind
      · simp only [runPA_nil, cpRes, get_set]; grind
      · simp only [runPA_nil, cpRes, get_set]; grind
      · simp only [runPA_nil, cpRes, get_set]; grind
      · intro x hx
        have := h3 x
        simp only [cpScr, List.mem_cons, List.not_mem_nil, or_false, not_or] at hx this
        simp only [runPA_nil, cpRes, get_set]
        grind

/-- **C35 (getting the current player).** Whatever happened to the current player, `f_getcurpl` returns it, and leaves it and every dword outside the cache alone. -/
theorem C35_get {L : Layout} {cpc cnd r0 : Nat} (hk : CpOk L cpc cnd) {l : List Nat} (hl : l.Perm (List.range 32)) (n1 n2 n3 : Nat) {s : Mem} (hI : CpInv cpc cnd s)
    (hr : r0 + 348 ∉ [cpc + 4, cpc + 344, cpc + 348, cpc + 352, cnd + 8, cpAddr]) :
    Wp L (getCp L cpc cnd r0 l n1 n2 n3) s fun o s' => o = .ret ∧ s' (r0 + 348) = s cpAddr ∧ s' cpAddr = s cpAddr ∧ s' (cpc + 348) = s cpAddr ∧ CpInv cpc cnd s' ∧
      Only ((r0 + 348) :: cpScr cpc cnd) s s' := by
  have nd := hk.nd
  simp only [List.nodup_cons, List.mem_cons, not_or, List.not_mem_nil, not_false_eq_true, List.nodup_nil, and_true] at nd hr
  have key : Does L (.ite .skip [cMemV cpAddr .exactly cnd] .skip (updCp L cpc cnd l n1 n2)) s fun s' =>
      s' cpAddr = s cpAddr ∧ s' (cpc + 348) = s cpAddr ∧ CpInv cpc cnd s' ∧ Only (cpScr cpc cnd) s s' := by
    refine Does.ite0 (fun p hp => by rw [List.mem_singleton.1 hp]; exact cMemV_ok hk.cp _ _ _) (fun h => ?_) (fun h => updCp_does hk hl n1 n2 hI.2)
    simp only [holdsAll_cons, holdsAll_nil, Bool.and_true, cMemV_holds, compare, decide_eq_true_eq] at h
    exact Does.skip ⟨rfl, by rw [← hI.1, h], hI, Only.refl _ _⟩
  refine Wp.seqN (key.mono ?_)
  rintro s1 ⟨h1, h2, h3, h4⟩
  refine Wp.seqN (Does.prim ⟨trivial, h3.2, rfl⟩ (Wp.ret ⟨rfl, ?_, ?_, ?_, ⟨?_, ?_⟩, ?_⟩))
  · simp only [runPA_nil, cpRes, get_set]; grind
  · simp only [runPA_nil, cpRes, get_set]; grind
  · simp only [runPA_nil, cpRes, get_set]; grind
  · have := h3.1
    simp only [runPA_nil, cpRes, get_set]; grind
  · have := h3.2
    simp only [runPA_nil, cpRes, get_set]; grind
  · intro x hx
    have := h4 x
    simp only [cpScr, List.mem_cons, List.not_mem_nil, or_false, not_or] at hx this
    simp only [runPA_nil, cpRes, get_set]
    grind

/-! ## Histories -/

/-- The operations on the current player. -/
inductive CpOp
  /-- `f_setcurpl(p)`, `SetCurrentPlayer(p)` -/
  | setC (p : W)
  /-- `f_addcurpl(p)`, `AddCurrentPlayer(p)` -/
  | addC (p : W)
  /-- `f_setcurpl(v)`; `n` is where it goes on -/
  | setV (v n : Nat)
  /-- `f_addcurpl(v)` -/
  | addV (v : Nat)
  /-- the game sets the current player -/
  | game (p : W)

/-- What an operation does to the memory. -/
def CpOp.run (cpc cnd : Nat) : CpOp → Mem → Mem
  | .setC p, s => cpAll cpc cnd .set p s
  | .addC p, s => cpAll cpc cnd .add p s
  | .setV v n, s => ((cpAll cpc cnd .set (s (v + 348)) s).set (cpc + 344) (epd cpAddr)).set (cpc + 4) (BitVec.ofNat 32 n)
  | .addV v, s => cpAll cpc cnd .add (s (v + 348)) s
  | .game p, s => s.set cpAddr p

/-- The code of an operation, from `e` to `x`; the game needs none. -/
inductive CpOp.Placed (L : Layout) (cpc cnd : Nat) : CpOp → Nat → Nat → Prop
  | setC {p : W} {e x : Nat} (h : ∃ r b k, Code L r b k (.trig [] (setCpActs cpc cnd .set p)) e x) : Placed L cpc cnd (.setC p) e x
  | addC {p : W} {e x : Nat} (h : ∃ r b k, Code L r b k (.trig [] (setCpActs cpc cnd .add p)) e x) : Placed L cpc cnd (.addC p) e x
  | setV {v t1 t2 n : Nat} (h : SetCpV L cpc cnd v t1 t2 n) : Placed L cpc cnd (.setV v n) t1 n
  | addV {v t1 t2 t3 n : Nat} (h : AddCpV L cpc cnd v t1 t2 t3 n) : Placed L cpc cnd (.addV v) t1 n

/-- **C35 (operations).** The code of an operation does what `CpOp.run` says. -/
theorem C35_op {L : Layout} (hw : L.Wf) {cpc cnd : Nat} (hk : CpOk L cpc cnd) {op : CpOp} {e x : Nat} (h : op.Placed L cpc cnd e x) {s : Mem} (hI : CpInv cpc cnd s) :
    L.Runs s e (op.run cpc cnd s) x := by
  cases h with
  | setC h =>
    obtain ⟨r, b, k, hc⟩ := h
    obtain ⟨s', h1, rfl⟩ := setCp_does hk .set _ s
    exact C25_structured hw h1 hc
  | addC h =>
    obtain ⟨r, b, k, hc⟩ := h
    obtain ⟨s', h1, rfl⟩ := setCp_does hk .add _ s
    exact C25_structured hw h1 hc
  | setV h => exact h.runs hw hk hI.2
  | addV h => exact h.runs hw hk s

/-- An operation as a statement. -/
def CpOpRel (cpc cnd : Nat) (op : CpOp) (s s' : Mem) : Prop := CpInv cpc cnd s ∧ s' = op.run cpc cnd s

theorem CpOp.Placed.code {L : Layout} (hw : L.Wf) {cpc cnd : Nat} (hk : CpOk L cpc cnd) {op : CpOp} {e x : Nat} (h : op.Placed L cpc cnd e x) {r b k : Nat} :
    Code L r b k (.prim (CpOpRel cpc cnd op)) e x := by
  refine .prim ?_
  rintro s s' ⟨h1, rfl⟩
  exact C35_op hw hk h h1

/-- What it means for the current player. -/
def CpOp.spec (vals : Nat → W) : CpOp → W → W
  | .setC p, _ => p
  | .addC p, w => w + p
  | .setV v _, _ => vals v
  | .addV v, w => w + vals v
  | .game p, _ => p

def CpOp.vars : CpOp → List Nat
  | .setV v _ => [v]
  | .addV v => [v]
  | _ => []

/-- **C35 (histories).** After any sequence of operations, with the game changing the current player at any point, the current player is what the operations say, and the
cache is in the state that `f_getcurpl` needs (`C35_get`). -/
theorem C35_history {L : Layout} {cpc cnd : Nat} (hk : CpOk L cpc cnd) (s0 : Mem) :
    ∀ (ops : List CpOp), (∀ o ∈ ops, ∀ v ∈ o.vars, v + 348 ∉ [cpc + 4, cpc + 344, cpc + 348, cpc + 352, cnd + 8, cpAddr]) → ∀ s : Mem, CpInv cpc cnd s →
      Only (cpAddr :: cpScr cpc cnd) s0 s →
      let s' := ops.foldl (fun s o => o.run cpc cnd s) s
      s' cpAddr = ops.foldl (fun w o => o.spec (fun v => s0 (v + 348)) w) (s cpAddr) ∧ CpInv cpc cnd s' ∧ Only (cpAddr :: cpScr cpc cnd) s0 s'
  | [], _, s, hI, ho => ⟨rfl, hI, ho⟩
  | o :: ops, hv, s, ⟨i1, i2⟩, ho => by
    have nd := hk.nd
    simp only [List.nodup_cons, List.mem_cons, not_or, List.not_mem_nil, not_false_eq_true, List.nodup_nil, and_true] at nd
    have key : (o.run cpc cnd s) cpAddr = o.spec (fun v => s0 (v + 348)) (s cpAddr) ∧ CpInv cpc cnd (o.run cpc cnd s) ∧ Only (cpAddr :: cpScr cpc cnd) s0 (o.run cpc cnd s) := by
      have hvo := hv o (by simp)
      refine ⟨?_, ⟨?_, ?_⟩, ?_⟩
      · cases o with
        | setV v n =>
          have := hvo v (by simp [CpOp.vars])
          have h2 := ho (v + 348)
          simp only [cpScr, List.mem_cons, List.not_mem_nil, or_false, not_or] at this h2
          simp only [CpOp.run, CpOp.spec, cpAll, get_set, arith]; grind
        | addV v =>
          have := hvo v (by simp [CpOp.vars])
          have h2 := ho (v + 348)
          simp only [cpScr, List.mem_cons, List.not_mem_nil, or_false, not_or] at this h2
          simp only [CpOp.run, CpOp.spec, cpAll, get_set, arith]; grind
        | _ => simp [CpOp.run, CpOp.spec, cpAll, get_set, arith]
      · cases o <;> simp only [CpOp.run, cpAll, get_set, arith] <;> grind
      · cases o <;> simp only [CpOp.run, cpAll, get_set, arith] <;> grind
      · intro x hx
        have := ho x hx
        simp only [cpScr, List.mem_cons, List.not_mem_nil, or_false, not_or] at hx
        cases o <;> simp only [CpOp.run, cpAll, get_set, arith] <;> grind
    obtain ⟨k1, k2, k3⟩ := key
    have := C35_history hk s0 ops (fun o' ho' => hv o' (by simp [ho'])) (o.run cpc cnd s) k2 k3
    simp only [List.foldl_cons]
    rw [k1] at this
    exact this

end Eud.SC
