import Verif.Lib.ReadTable
import Verif.Lib.Compare
/-
C32, C33: reading memory (memio/readtable.py, memio/dwepdio.py, memio/cpmemio.py, memio/bwepdio.py).

The dword at EPD `e` is read by making `e` the current player and testing the bits of the "death count" of the current player.
-/

namespace Eud.SC

/-- The address that belongs to an EPD value (utils/etc.py:39, the inverse of `EPD`). -/
def epdAddr (e : W) : Nat := (deathTable + 4 * e.toNat) % 2 ^ 32

theorem epdAddr_epd {a : Nat} (h : a % 4 = 0) (h2 : a < 2 ^ 32) : epdAddr (epd a) = a := by
  unfold epdAddr
  rw [epd_toNat a h h2]
  simp only [deathTable]
  split <;> omega

/-- readtable.py:93 `DeathsX(CP, AtLeast, 1, 0, 1 << x)` -/
def rtCond (x : Nat) : PC := ⟨.check (some (.cp 0)) .atLeast (some 1) (some (pow2 x)), none⟩

/-- readtable.py:88-98: the trigger for one bit.  `A` gives the addresses of the triggers of the table, `rend` is `read_end_common`, and
`rend + 348` is `copy_ret + 20`. -/
def rtBlk (A : Nat → Nat) (rend : Nat) (t : Nat) (r : RTrig) : SBlk :=
  ⟨A t, ⟨[(rtCond r.bit).c], [(aMem (rend + 348) .add (BitVec.ofNat 32 (shl 1 (r.bit + r.sh)))).a]⟩,
    some (match r.next with | none => rend | some p => A p), false⟩

/-- readtable.py:19: `copy_ret = SetDeaths(0, SetTo, 0, 0)`, whose destination and value are filled in by the program. -/
def copyRet (rend : Nat) : PA := ⟨⟨none, .set, none, some 0xFFFFFFFF⟩, some (rend + 328)⟩

/-- readtable.py:20-26 -/
def rendBlk (rend : Nat) : SBlk := ⟨rend, ⟨[], [copyRet rend, aMem (rend + 348) .set 0].map PA.a⟩, none, false⟩

/-- The triggers of the table are in the program. -/
structure RdTab (L : Layout) (T : RT) (A : Nat → Nat) (rend : Nat) : Prop where
  trigs : ∀ (t : Nat) (r : RTrig), T.trigs[t]? = some r → rtBlk A rend t r ∈ L.P.blks
  endb : rendBlk rend ∈ L.P.blks
  c4 : L.cell (rend + 4)
  c344 : L.cell (rend + 344)
  c348 : L.cell (rend + 348)
  cp : L.cell cpAddr
  ncp : cpAddr ≠ rend + 4 ∧ cpAddr ≠ rend + 344 ∧ cpAddr ≠ rend + 348

/-- The part of this that the triggers of the table need, without `read_end_common`. -/
structure RdTrigs (L : Layout) (T : RT) (A : Nat → Nat) (rend : Nat) : Prop where
  trigs : ∀ (t : Nat) (r : RTrig), T.trigs[t]? = some r → rtBlk A rend t r ∈ L.P.blks
  c348 : L.cell (rend + 348)
  ncp : cpAddr ≠ rend + 348

theorem RdTab.base {L : Layout} {T : RT} {A : Nat → Nat} {rend : Nat} (h : RdTab L T A rend) : RdTrigs L T A rend := ⟨h.trigs, h.c348, h.ncp.2.2⟩

theorem rtCond_holds (s : Mem) {x : Nat} (hx : x < 32) : (rtCond x).holds s = (s (epdAddr (s cpAddr))).toNat.testBit x := by
  simp only [PC.holds, rtCond, SCnd.res, Option.getD_some, Cnd.holds, Dst.addr, Nat.mul_zero, Nat.add_zero]
  rw [show (deathTable + 4 * (s cpAddr).toNat) % 2 ^ 32 = epdAddr (s cpAddr) from rfl, pow2_bit _ hx]
  rfl

/-- One trigger of the table. -/
theorem rt_step {L : Layout} (hw : L.Wf) {T : RT} {A : Nat → Nat} {rend : Nat} (hT : RdTrigs L T A rend) {t : Nat} {r : RTrig}
    (hr : T.trigs[t]? = some r) (hb : r.bit < 32) {s : Mem} (hp : ¬ L.priv (epdAddr (s cpAddr))) :
    L.Runs s (A t) (s.set (rend + 348) (s (rend + 348) + BitVec.ofNat 32 (bitTerm (s (epdAddr (s cpAddr))).toNat r.sh r.bit)))
      (match r.next with | none => rend | some p => A p) := by
  have hblk := hT.trigs t r hr
  have hc : L.Cnds [(rtCond r.bit).c] (A t + 8) s := by
    refine ⟨trivial, ?_, trivial⟩
    simp only [rtCond, SCnd.res, Option.getD_some, Dst.addr, Nat.mul_zero, Nat.add_zero]
    exact hp
  have h := Layout.Runs.trig hw hblk rfl rfl (s := s) hc (fun _ => ⟨fun h => (by cases h), by
    simpa [aMem, sMem, SAct.res, Dst.addr] using hT.c348, trivial⟩)
  have e : (rtBlk A rend t r).exec s =
      s.set (rend + 348) (s (rend + 348) + BitVec.ofNat 32 (bitTerm (s (epdAddr (s cpAddr))).toNat r.sh r.bit)) := by
    have hh := rtCond_holds s hb
    simp only [PC.holds] at hh
    have hcs : condsS s [(rtCond r.bit).c] (A t + 8) = (s (epdAddr (s cpAddr))).toNat.testBit r.bit := by
      simp only [condsS, Bool.and_true]
      rw [← hh]
      rfl
    unfold bitTerm
    show (if condsS s [(rtCond r.bit).c] (A t + 8) = true then
      runS [(aMem (rend + 348) .add (BitVec.ofNat 32 (shl 1 (r.bit + r.sh)))).a] (A t + 328) s else s) = _
    rw [hcs]
    cases (s (epdAddr (s cpAddr))).toNat.testBit r.bit with
    | true => simp only [if_true, runS, aMem, sMem_apply, arith]
    | false => simp only [Bool.false_eq_true, if_false, BitVec.ofNat_eq_ofNat, BitVec.add_zero]; exact (set_self _ _).symm
  rw [e] at h
  exact h

theorem ofNat_add_assoc (w : W) (a b : Nat) : w + BitVec.ofNat 32 a + BitVec.ofNat 32 b = w + BitVec.ofNat 32 (a + b) := by
  rw [BitVec.add_assoc, ← BitVec.ofNat_add]

/-- **A chain of the table**: the bits from `x` to `e` of the current player's dword are added up. -/
theorem RT.Good.runs {L : Layout} (hw : L.Wf) {T : RT} (hg : T.Good) {A : Nat → Nat} {rend : Nat} (hT : RdTrigs L T A rend) {sh : Int} {e : Nat}
    (he : e < 32) : ∀ (n x t : Nat), T.find (sh, e, x) = some t → x < 32 → (x - e) + (e - x) = n → ∀ s : Mem,
    ¬ L.priv (epdAddr (s cpAddr)) → epdAddr (s cpAddr) ≠ rend + 348 →
    L.Runs s (A t) (s.set (rend + 348) (s (rend + 348) + BitVec.ofNat 32 (bsum (s (epdAddr (s cpAddr))).toNat sh (if x ≤ e then x else e) (n + 1)))) rend := by
  intro n
  induction n with
  | zero =>
    intro x t hf hx hn s hp _
    have hxe : x = e := by omega
    subst hxe
    obtain ⟨nx, g1, g2, -, -⟩ := hg _ _ _ _ hf
    rw [g2 rfl] at g1
    have := rt_step hw hT g1 hx hp
    simpa [bsum] using this
  | succ n ih =>
    intro x t hf hx hn s hp hd
    obtain ⟨nx, g1, -, g3, g4⟩ := hg _ _ _ _ hf
    have h1 := rt_step hw hT g1 hx hp
    generalize hs1 : s.set (rend + 348) (s (rend + 348) + BitVec.ofNat 32 (bitTerm (s (epdAddr (s cpAddr))).toNat sh x)) = s1 at h1
    have hcp : s1 cpAddr = s cpAddr := by rw [← hs1, set_ne hT.ncp]
    have hsd : s1 (epdAddr (s cpAddr)) = s (epdAddr (s cpAddr)) := by rw [← hs1, set_ne hd]
    have hsv : s1 (rend + 348) = s (rend + 348) + BitVec.ofNat 32 (bitTerm (s (epdAddr (s cpAddr))).toNat sh x) := by rw [← hs1, set_eq]
    have key : ∀ x' p, nx = some p → T.find (sh, e, x') = some p → x' < 32 → (x' - e) + (e - x') = n →
        bitTerm (s (epdAddr (s cpAddr))).toNat sh x + bsum (s (epdAddr (s cpAddr))).toNat sh (if x' ≤ e then x' else e) (n + 1) =
          bsum (s (epdAddr (s cpAddr))).toNat sh (if x ≤ e then x else e) (n + 1 + 1) →
        L.Runs s (A t) (s.set (rend + 348) (s (rend + 348) + BitVec.ofNat 32 (bsum (s (epdAddr (s cpAddr))).toNat sh (if x ≤ e then x else e) (n + 1 + 1)))) rend := by
      intro x' p e1 e2 hx' hn' hsum
      subst e1
      have h2 := ih x' p e2 hx' hn' s1 (by rw [hcp]; exact hp) (by rw [hcp]; exact hd)
      rw [hcp, hsd, hsv, ofNat_add_assoc, hsum] at h2
      rw [← hs1, set_set] at h2
      rw [← hs1] at h1
      exact h1.trans h2
    rcases Nat.lt_or_ge e x with hlt | hge
    · obtain ⟨p, e1, e2⟩ := g3 hlt
      refine key (x - 1) p e1 e2 (by omega) (by omega) ?_
      have ex : (if x - 1 ≤ e then x - 1 else e) = e := by split <;> omega
      rw [if_neg (show ¬ x ≤ e by omega), ex, Nat.add_comm, bsum.eq_2 _ _ _ (n + 1), show e + (n + 1) = x from by omega]
    · obtain ⟨p, e1, e2⟩ := g4 (by omega)
      refine key (x + 1) p e1 e2 (by omega) (by omega) ?_
      rw [if_pos (show x ≤ e by omega), if_pos (show x + 1 ≤ e by omega)]
      exact (bsum_front _ _ _ _).symm

/-- `floor((w & mask) * 2 ^ sh)`, as a dword: what a reader for `mask` and `sh` is for. -/
def readVal (w : W) (mask : Nat) (sh : Int) : W := BitVec.ofNat 32 (shl (w.toNat &&& mask) sh)

/-- **C33 (shared readers).** After any history of requests `qs` a request `q` for a reader of 32-bit masks gives a trigger `t`.  Whatever further
requests `qs'` come later, in the finished program control started at `t` arrives at `read_end_common`, after adding `floor((value & mask) * 2 ^ shift)`
to the value that `read_end_common` copies, where `value` is the dword at the current player's place; nothing else has changed. -/
theorem C33_shared {L : Layout} (hw : L.Wf) (qs qs' : List RReq) {q : RReq} (hm : q.mask < 2 ^ 32) {T1 : RT} {t : Nat}
    (hq : (RT.run RT.empty qs).req q = some (T1, t)) {A : Nat → Nat} {rend : Nat} (hT : RdTrigs L (T1.run qs') A rend) {s : Mem}
    (hp : ¬ L.priv (epdAddr (s cpAddr))) (hd : epdAddr (s cpAddr) ≠ rend + 348) :
    L.Runs s (A t) (s.set (rend + 348) (s (rend + 348) + readVal (s (epdAddr (s cpAddr))) q.mask q.sh)) rend := by
  obtain ⟨g1, g2, g3⟩ := RT.req_spec (RT.run_spec qs RT.empty RT.good_empty).1 hq
  obtain ⟨k1, k2⟩ := RT.run_spec qs' T1 g1
  obtain ⟨hc, hs⟩ := g3.ext k2
  obtain ⟨c1, c2⟩ := isConsec_spec hc
  have hne : q.mask ≠ 0 := by
    intro e
    rw [e] at hc
    simp [isConsec] at hc
  have hlog : q.mask.log2 < 32 := (Nat.log2_lt hne).2 hm
  have hsum := bsum_mask hc (s (epdAddr (s cpAddr))).toNat q.sh
  unfold readVal
  rw [← hsum]
  rcases hs with hs | hs
  · have := k1.runs hw hT (by omega) (q.mask.log2 - lsbIdx q.mask) _ _ hs hlog (by omega) s hp hd
    have ex : (if q.mask.log2 ≤ lsbIdx q.mask then q.mask.log2 else lsbIdx q.mask) = lsbIdx q.mask := by split <;> omega
    rw [ex, show q.mask.log2 - lsbIdx q.mask + 1 = q.mask.log2 + 1 - lsbIdx q.mask from by omega] at this
    exact this
  · have := k1.runs hw hT hlog (q.mask.log2 - lsbIdx q.mask) _ _ hs (by omega) (by omega) s hp hd
    rw [if_pos c1, show q.mask.log2 - lsbIdx q.mask + 1 = q.mask.log2 + 1 - lsbIdx q.mask from by omega] at this
    exact this

/-- **C33 (requests succeed).** A request to insert a reader, or to get or insert one, for a consecutive bit pattern never fails, whatever was requested before. -/
theorem C33_total (qs : List RReq) {mask : Nat} (hc : isConsec mask = true) (sh : Int) (ord : Option Bool) :
    ((RT.run RT.empty qs).insert mask sh ord).isSome = true ∧ ((RT.run RT.empty qs).insertOrGet mask sh ord).isSome = true := by
  have hg := (RT.run_spec qs RT.empty RT.good_empty).1
  refine ⟨RT.insert_total hg hc sh ord, ?_⟩
  unfold RT.insertOrGet
  split
  · rfl
  · exact RT.insert_total hg hc sh ord

/-! ## Callers -/

/-- `read_end_common`: the value goes where the caller wants it, and is reset; control goes where the caller wants it. -/
theorem rend_runs {L : Layout} (hw : L.Wf) {T : RT} {A : Nat → Nat} {rend : Nat} (hT : RdTab L T A rend) {s : Mem} {o : Nat}
    (ho : s (rend + 344) = epd o) (he : EpdOK o) (hc : L.cell o) :
    L.Runs s rend ((s.set o (s (rend + 348))).set (rend + 348) 0) (((s.set o (s (rend + 348))).set (rend + 348) 0) (rend + 4)).toNat := by
  have hres : (copyRet rend).a.res s (rend + 328) = ⟨.mem o, .set, s (rend + 348), 0xFFFFFFFF⟩ := by
    simp only [copyRet, SAct.res, Nat.add_assoc, Nat.reduceAdd, ho, dstOf_epd he, Option.getD_none, Option.getD_some]
  have hrun : runPA [copyRet rend, aMem (rend + 348) .set 0] s = (s.set o (s (rend + 348))).set (rend + 348) 0 := by
    simp only [runPA, List.foldl_cons, List.foldl_nil]
    have h1 : (copyRet rend).run s = s.set o (s (rend + 348)) := by
      unfold PA.run
      rw [show (copyRet rend).pos.getD 0 = rend + 328 from rfl, hres]
      simp only [Act.apply, Dst.addr]
      congr 1
      unfold modify arith
      simp only
      rw [show (~~~(0xFFFFFFFF : W)) = 0 from by decide]
      simp only [BitVec.ofNat_eq_ofNat, BitVec.and_zero, BitVec.zero_or]
      show (_ &&& (0xFFFFFFFF : W)) &&& (0xFFFFFFFF : W) = _
      rw [and_full, and_full]
    rw [h1]
    simp only [PA.run, aMem, sMem_apply, arith]
  have h := Layout.Runs.dyn hw (t := rend) (cs := []) (as := [copyRet rend, aMem (rend + 348) .set 0]) hT.endb hT.c4.2 trivial
    ⟨rfl, ⟨rfl, rfl, rfl⟩, trivial⟩ (s := s) (by simp) (fun _ => by
      refine ⟨fun _ => ?_, ?_, ?_, ?_, trivial⟩
      · show (dstOf (s (rend + 328 + 16)) 0).isSome = true
        simp only [Nat.add_assoc, Nat.reduceAdd, ho, dstOf_epd he]; rfl
      · rw [show (copyRet rend).pos.getD 0 = rend + 328 from rfl, hres]
        exact hc
      · intro h; cases h
      · exact hT.c348)
  have : (if holdsAll s [] = true then runPA [copyRet rend, aMem (rend + 348) .set 0] s else s) = (s.set o (s (rend + 348))).set (rend + 348) 0 := by
    rw [← hrun]; rfl
  rwa [this] at h

/-- A trigger of the table that reads the bits of `mask`, shifted by `sh`. -/
def Reader (L : Layout) (rend t mask : Nat) (sh : Int) : Prop :=
  ∀ s : Mem, ¬ L.priv (epdAddr (s cpAddr)) → epdAddr (s cpAddr) ≠ rend + 348 →
    L.Runs s t (s.set (rend + 348) (s (rend + 348) + readVal (s (epdAddr (s cpAddr))) mask sh)) rend

/-- C33 gives readers. -/
theorem Reader.of {L : Layout} (hw : L.Wf) (qs qs' : List RReq) {q : RReq} (hm : q.mask < 2 ^ 32) {T1 : RT} {t : Nat}
    (hq : (RT.run RT.empty qs).req q = some (T1, t)) {A : Nat → Nat} {rend : Nat} (hT : RdTab L (T1.run qs') A rend) :
    Reader L rend (A t) q.mask q.sh := fun _ hp hd => C33_shared hw qs qs' hm hq hT.base hp hd

theorem Reader.ofT {L : Layout} (hw : L.Wf) (qs qs' : List RReq) {q : RReq} (hm : q.mask < 2 ^ 32) {T1 : RT} {t : Nat}
    (hq : (RT.run RT.empty qs).req q = some (T1, t)) {A : Nat → Nat} {rend : Nat} (hT : RdTrigs L (T1.run qs') A rend) :
    Reader L rend (A t) q.mask q.sh := fun _ hp hd => C33_shared hw qs qs' hm hq hT hp hd

/-- From the start of a chain until control is back at the caller. -/
theorem Reader.runs {L : Layout} (hw : L.Wf) {T : RT} {A : Nat → Nat} {rend : Nat} (hT : RdTab L T A rend) {t mask : Nat} {sh : Int}
    (hr : Reader L rend t mask sh) {s : Mem} {o k : Nat} (hp : ¬ L.priv (epdAddr (s cpAddr))) (hd : epdAddr (s cpAddr) ≠ rend + 348)
    (hk : k < 2 ^ 32) (h4 : s (rend + 4) = BitVec.ofNat 32 k) (ho : s (rend + 344) = epd o) (he : EpdOK o) (hc : L.cell o)
    (o4 : o ≠ rend + 4) :
    L.Runs s t ((s.set o (s (rend + 348) + readVal (s (epdAddr (s cpAddr))) mask sh)).set (rend + 348) 0) k := by
  have h1 := hr s hp hd
  generalize hv : s (rend + 348) + readVal (s (epdAddr (s cpAddr))) mask sh = v at h1 ⊢
  have h2 := rend_runs hw hT (s := s.set (rend + 348) v) (o := o) (by rw [set_ne (by omega)]; exact ho) he hc
  rw [set_eq] at h2
  have e1 : (((s.set (rend + 348) v).set o v).set (rend + 348) 0) = (s.set o v).set (rend + 348) 0 := by
    funext x
    simp only [get_set]
    by_cases h1 : x = rend + 348
    · simp [h1]
    · simp [h1]
  rw [e1, set_ne (show rend + 4 ≠ rend + 348 by omega), set_ne (Ne.symm o4), h4, BitVec.toNat_ofNat, Nat.mod_eq_of_lt hk] at h2
  exact h1.trans h2

/-- The dwords that every reader uses. -/
def rdScr (rend cpc : Nat) : List Nat := [rend + 4, rend + 344, rend + 348, cpc + 4, cpc + 344, cpAddr]

/-- readtable.py:177-193: the preparations of `_epd_caller`, as ordered by `NonSeqCompute` (eudv.py:856-894: constants first). `init` is
the value that the sum starts with, when given (`_operations` of dwepdio.py:56). -/
def epdOps (rend cpc nxt o : Nat) (src : Src) (init : Option W) : List Asg :=
  match src with
  | .const c =>
    [⟨rend + 4, .set, .const (BitVec.ofNat 32 cpc)⟩, ⟨cpc + 4, .set, .const (BitVec.ofNat 32 nxt)⟩, ⟨cpc + 344, .set, .const (epd cpAddr)⟩,
      ⟨rend + 344, .set, .const (epd o)⟩, ⟨cpAddr, .set, .const c⟩] ++ (init.map fun w => (⟨rend + 348, .set, .const w⟩ : Asg)).toList
  | .var v =>
    [⟨rend + 4, .set, .const (BitVec.ofNat 32 cpc)⟩, ⟨cpc + 4, .set, .const (BitVec.ofNat 32 nxt)⟩, ⟨cpc + 344, .set, .const (epd cpAddr)⟩,
      ⟨rend + 344, .set, .const (epd o)⟩] ++ (init.map fun w => (⟨rend + 348, .set, .const w⟩ : Asg)).toList ++ [⟨cpAddr, .set, .var v⟩]

/-- The places used by a call of a reader. -/
structure RdOk (L : Layout) (rend cpc o : Nat) (src : Src) : Prop where
  pv : PVar L cpc
  nd : [rend + 4, rend + 344, rend + 348, cpc + 4, cpc + 344, cpc + 348, cpAddr].Nodup
  co : L.cell o
  eo : EpdOK o
  no : o ∉ rdScr rend cpc ∧ o ≠ cpc + 348
  nm : o ≠ cpc + 352 ∧ cpc + 352 ∉ rdScr rend cpc
  lt : cpc < 2 ^ 32
  src : ∀ v, src = .var v → v ∈ L.P.vars ∧ v + 348 ∉ rdScr rend cpc

theorem epd_cp : EpdOK cpAddr := by decide

/-- The memory when the reader starts. -/
def epdPrep (rend cpc nxt o : Nat) (init : Option W) (e : W) (s : Mem) : Mem := fun x =>
  if x = cpAddr then e else if x = rend + 348 then init.getD (s (rend + 348)) else if x = rend + 344 then epd o
  else if x = cpc + 344 then epd cpAddr else if x = cpc + 4 then BitVec.ofNat 32 nxt else if x = rend + 4 then BitVec.ofNat 32 cpc else s x

/-- The memory afterwards, `w` being the dword that is read. -/
def epdRes (rend cpc nxt o : Nat) (init : W) (w : W) (s : Mem) : Mem := fun x =>
  if x = o then init + w
  else if x = rend + 4 then BitVec.ofNat 32 cpc
  else if x = cpc + 4 then BitVec.ofNat 32 nxt
  else if x = cpc + 344 then epd cpAddr
  else if x = rend + 344 then epd o
  else if x = rend + 348 then 0
  else if x = cpAddr then s (cpc + 348)
  else s x

/-- `_epd_caller` for every EPD but that of the sum. -/
theorem epd_caller_gen {L : Layout} (hw : L.Wf) {T : RT} {A : Nat → Nat} {rend cpc o t mask nxt : Nat} {sh : Int} {src : Src} {init : Option W}
    (hT : RdTab L T A rend) (hr : Reader L rend t mask sh) (hk : RdOk L rend cpc o src) (hn : nxt < 2 ^ 32) {r b k e : Nat}
    (hcode : Code L r b k (.asg (epdOps rend cpc nxt o src init)) e t) {s : Mem} (hmd : s (cpc + 352) = pmod .set) (hp : ¬ L.priv (epdAddr (src.valM s)))
    (hd : epdAddr (src.valM s) ≠ rend + 348) :
    L.Runs s e (epdRes rend cpc nxt o (init.getD (s (rend + 348)))
      (readVal (epdPrep rend cpc nxt o init (src.valM s) s (epdAddr (src.valM s))) mask sh) s) nxt := by
  have hx : Exec L (.asg (epdOps rend cpc nxt o src init)) s .nrm (runAsg (epdOps rend cpc nxt o src init) s) := by
    refine .asg ?_ ?_
    · intro g hg
      have : g.a ∈ rdScr rend cpc := by
        unfold epdOps rdScr at *
        cases src <;> cases init <;> simp at hg ⊢ <;> grind
      simp only [rdScr, List.mem_cons, List.not_mem_nil, or_false] at this
      rcases this with h | h | h | h | h | h <;> rw [h]
      · exact hT.c4
      · exact hT.c344
      · exact hT.c348
      · exact hk.pv.nxt
      · exact hk.pv.dst
      · exact hT.cp
    · intro g hg v hv
      have : src = .var v := by
        unfold epdOps at hg
        cases src <;> cases init <;> simp at hg <;> grind
      exact (hk.src v this).1
  have h1 := C25_structured hw hx hcode
  simp only [Out.dest] at h1
  have nd := hk.nd
  simp only [List.nodup_cons, List.mem_cons, not_or, List.not_mem_nil, not_false_eq_true, List.nodup_nil, and_true] at nd
  have hs1 : runAsg (epdOps rend cpc nxt o src init) s = epdPrep rend cpc nxt o init (src.valM s) s := by
    have hv := hk.src
    funext x
    unfold epdPrep
    unfold epdOps rdScr at *
    cases src with
    | const c => cases init <;> simp [runAsg, get_set, arith, Src.valM] <;> grind
    | var v =>
      have hv := (hv v rfl).2
      simp only [List.mem_cons, List.not_mem_nil, or_false, not_or] at hv
      cases init <;> simp [runAsg, get_set, arith, Src.valM] <;> grind
  generalize runAsg (epdOps rend cpc nxt o src init) s = s1 at h1 hs1
  have hno := hk.no
  simp only [rdScr, List.mem_cons, List.not_mem_nil, or_false, not_or] at hno
  have ecp : s1 cpAddr = src.valM s := by rw [hs1]; simp [epdPrep]
  have e4 : s1 (rend + 4) = BitVec.ofNat 32 cpc := by rw [hs1]; simp only [epdPrep]; grind
  have e344 : s1 (rend + 344) = epd o := by rw [hs1]; simp only [epdPrep]; grind
  have e348 : s1 (rend + 348) = init.getD (s (rend + 348)) := by rw [hs1]; simp only [epdPrep]; grind
  have h2 := hr.runs hw hT (s := s1) (o := o) (k := cpc) (by rw [ecp]; exact hp) (by rw [ecp]; exact hd) hk.lt e4 e344 hk.eo hk.co hno.1.1
  rw [ecp, e348] at h2
  generalize hv : init.getD (s (rend + 348)) + readVal (s1 (epdAddr (src.valM s))) mask sh = v at h2
  have hnm := hk.nm
  simp only [rdScr, List.mem_cons, List.not_mem_nil, or_false, not_or] at hnm
  have h3 := Layout.Runs.pvar (L := L) hk.pv (s := (s1.set o v).set (rend + 348) 0) (by
    rw [set_ne (by grind), set_ne (by grind), hs1]; simp only [epdPrep]; grind) (d := cpAddr) (by
    rw [set_ne (by grind), set_ne (by grind), hs1]; simp only [epdPrep]; grind) epd_cp hT.cp
  rw [set_ne (show cpc + 4 ≠ cpAddr by grind), set_ne (show cpc + 4 ≠ rend + 348 by grind), set_ne (show cpc + 4 ≠ o by grind),
    set_ne (show cpc + 348 ≠ rend + 348 by grind), set_ne (show cpc + 348 ≠ o by grind)] at h3
  have e5 : s1 (cpc + 4) = BitVec.ofNat 32 nxt := by rw [hs1]; simp only [epdPrep]; grind
  have e6 : s1 (cpc + 348) = s (cpc + 348) := by rw [hs1]; simp only [epdPrep]; grind
  rw [e5, e6, BitVec.toNat_ofNat, Nat.mod_eq_of_lt hn] at h3
  have e7 : ((s1.set o v).set (rend + 348) 0).set cpAddr (s (cpc + 348)) =
      epdRes rend cpc nxt o (init.getD (s (rend + 348))) (readVal (epdPrep rend cpc nxt o init (src.valM s) s (epdAddr (src.valM s))) mask sh) s := by
    funext x
    unfold epdRes
    rw [← hs1, hv, hs1]
    simp only [get_set, epdPrep]
    grind
  rw [e7] at h3
  exact (h1.trans h2).trans h3

/-- A call of a reader as a statement: it needs an EPD of a visible dword that is not one of those the readers use. -/
def EpdRel (L : Layout) (rend cpc nxt o mask : Nat) (sh : Int) (src : Src) (init : Option W) (s s' : Mem) : Prop :=
  s (cpc + 352) = pmod .set ∧ ¬ L.priv (epdAddr (src.valM s)) ∧ epdAddr (src.valM s) ∉ rdScr rend cpc ∧
    s' = epdRes rend cpc nxt o (init.getD (s (rend + 348))) (readVal (s (epdAddr (src.valM s))) mask sh) s

/-- **C32 (`_epd_caller`, code).** The code emitted for a read does what `EpdRel` says. -/
theorem C32_epd_code {L : Layout} (hw : L.Wf) {T : RT} {A : Nat → Nat} {rend cpc o t mask nxt : Nat} {sh : Int} {src : Src} {init : Option W}
    (hT : RdTab L T A rend) (hr : Reader L rend t mask sh) (hk : RdOk L rend cpc o src) (hn : nxt < 2 ^ 32) {r b k e : Nat}
    (hcode : Code L r b k (.asg (epdOps rend cpc nxt o src init)) e t) :
    Code L r b k (.prim (EpdRel L rend cpc nxt o mask sh src init)) e nxt := by
  refine .prim ?_
  rintro s s' ⟨hmd, hp, hd, rfl⟩
  have hd' := hd
  simp only [rdScr, List.mem_cons, List.not_mem_nil, or_false, not_or] at hd'
  have h := epd_caller_gen hw hT hr hk hn hcode hmd hp hd'.2.2.1
  have : epdPrep rend cpc nxt o init (src.valM s) s (epdAddr (src.valM s)) = s (epdAddr (src.valM s)) := by
    unfold epdPrep
    grind
  rwa [this] at h

/-- **C32 (reading at an EPD).** For all memory contents and every EPD of a dword that is not one of those the readers use: the result is
`floor((value & mask) * 2 ^ shift)` (plus the start value), the current player afterwards is the cached one, the sum is reset for the next reader, and nothing else changes. -/
theorem C32_epd {L : Layout} {rend cpc o mask nxt : Nat} {sh : Int} {src : Src} {init : Option W} (hk : RdOk L rend cpc o src) {s : Mem}
    (hmd : s (cpc + 352) = pmod .set) (hp : ¬ L.priv (epdAddr (src.valM s))) (hd : epdAddr (src.valM s) ∉ rdScr rend cpc) :
    Does L (.prim (EpdRel L rend cpc nxt o mask sh src init)) s fun s' =>
      s' o = init.getD (s (rend + 348)) + readVal (s (epdAddr (src.valM s))) mask sh ∧ s' cpAddr = s (cpc + 348) ∧ s' (rend + 348) = 0 ∧
        Only (o :: rdScr rend cpc) s s' := by
  refine Does.prim ⟨hmd, hp, hd, rfl⟩ ?_
  have nd := hk.nd
  have hno := hk.no
  simp only [rdScr, List.mem_cons, List.not_mem_nil, or_false, not_or] at hno
  simp only [List.nodup_cons, List.mem_cons, not_or, List.not_mem_nil, not_false_eq_true, List.nodup_nil, and_true] at nd
  refine ⟨?_, ?_, ?_, ?_⟩
  · simp [epdRes]
  · simp only [epdRes]; grind
  · simp only [epdRes]; grind
  · intro x hx
    simp only [rdScr, List.mem_cons, List.not_mem_nil, or_false, not_or] at hx
    simp only [epdRes]
    grind

/-- **C32 (counterexample).** `f_dwread_epd(EPD(0x6509B0))` does not give the current player: by the time it is read it has been replaced. -/
theorem C32_counterexample_current_player {L : Layout} (hw : L.Wf) {T : RT} {A : Nat → Nat} {rend cpc o t mask nxt : Nat} {sh : Int}
    (hT : RdTab L T A rend) (hr : Reader L rend t mask sh) (hk : RdOk L rend cpc o (.const (epd cpAddr))) (hn : nxt < 2 ^ 32) {r b k e : Nat}
    (hcode : Code L r b k (.asg (epdOps rend cpc nxt o (.const (epd cpAddr)) none)) e t) {s : Mem} (hmd : s (cpc + 352) = pmod .set) :
    ∃ s', L.Runs s e s' nxt ∧ s' o = s (rend + 348) + readVal (epd cpAddr) mask sh := by
  have ea : epdAddr (epd cpAddr) = cpAddr := by decide
  have h := epd_caller_gen hw hT hr hk hn hcode (s := s) hmd (by simp only [Src.valM]; rw [ea]; exact hT.cp.2) (by simp only [Src.valM]; rw [ea]; exact hT.ncp.2.2)
  refine ⟨_, h, ?_⟩
  simp only [epdRes, if_true, Src.valM, ea]
  simp only [epdPrep, if_true, Option.getD_none]

/-! ## Special cases -/

/-- `f_dwread_epd` (dwepdio.py:46-49): the dword itself. -/
theorem C32_dword (w : W) : readVal w 0xFFFFFFFF 0 = w := by
  unfold readVal shl
  simp only [Int.le_refl, if_true, Int.toNat_zero, Nat.pow_zero, Nat.mul_one]
  rw [show (0xFFFFFFFF : Nat) = 2 ^ 32 - 1 from by decide, Nat.and_two_pow_sub_one_eq_mod, Nat.mod_eq_of_lt w.isLt]
  simp

/-- `f_maskread_epd` (memifgen.py:221-229) with a consecutive mask. -/
theorem C32_mask (w : W) (mask : Nat) : readVal w mask 0 = w &&& BitVec.ofNat 32 mask := by
  unfold readVal shl
  simp only [Int.le_refl, if_true, Int.toNat_zero, Nat.pow_zero, Nat.mul_one]
  rw [BitVec.ofNat_and]
  simp

/-- `f_bread_epd` (bwepdio.py:386-392), `f_wread_epd` (bwepdio.py:340-346) with constant sub-offsets: `n` bits from bit `8 * i` on. -/
theorem C32_field (w : W) (n i : Nat) : readVal w ((2 ^ n - 1) * 2 ^ (8 * i)) (-(8 * i : Nat)) = BitVec.ofNat 32 (w.toNat / 2 ^ (8 * i) % 2 ^ n) := by
  unfold readVal
  congr 1
  have hm : (2 ^ n - 1) * 2 ^ (8 * i) = 2 ^ (8 * i + n) - 2 ^ (8 * i) := by
    rw [Nat.sub_mul, Nat.pow_add, Nat.mul_comm, Nat.one_mul]
  rw [hm, and_run]
  unfold shl
  by_cases hi : i = 0
  · subst hi; simp
  · rw [if_neg (by omega), show (-(-((8 * i : Nat) : Int))).toNat = 8 * i from by omega, Nat.mul_div_cancel _ (Nat.two_pow_pos _)]

/-- `f_epdread_epd` (dwepdio.py:52-57): the EPD of the dword read as a pointer. -/
theorem C32_pointer (w : W) : epd 0 + readVal w 0xFFFFFFFC (-2) = epd w.toNat := by
  have h : readVal w 0xFFFFFFFC (-2) = BitVec.ofNat 32 (w.toNat / 4) := by
    unfold readVal
    congr 1
    have := and_run w.toNat 2 30
    rw [show 2 ^ (2 + 30) - 2 ^ 2 = 0xFFFFFFFC from by decide] at this
    rw [this]
    unfold shl
    rw [if_neg (by decide), show (-(-2 : Int)).toNat = 2 from rfl, Nat.mul_div_cancel _ (by decide)]
    have := w.isLt
    omega
  rw [h]
  unfold epd
  apply BitVec.eq_of_toNat_eq
  have := w.isLt
  simp only [BitVec.toNat_add, BitVec.toNat_ofInt, BitVec.toNat_ofNat]
  omega

end Eud.SC
