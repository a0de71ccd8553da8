import Verif.Lib.Arr
/-
C42: `EUDVArray` (core/eudstruct/vararray.py:36-327): an array of variables.  An index is turned into an address bit by bit, and an element is read by going to it.
-/

namespace Eud.SC

/-! ## Moving a cursor by the bits of a dword -/

/-- All dwords of the cursor at position `p`. -/
def Cursor.put : Cursor → Int → Mem → Mem
  | [], _, s => s
  | e :: c, p, s => Cursor.put c p (s.set e.1 (BitVec.ofInt 32 (e.2.1 + e.2.2 * p)))

theorem Cursor.put_ne : ∀ (c : Cursor) (p : Int) (s : Mem) {x : Nat}, x ∉ c.cells → c.put p s x = s x
  | [], _, _, _, _ => rfl
  | e :: c, p, s, x, h => by
    simp only [Cursor.cells, List.map_cons, List.mem_cons, not_or] at h
    rw [Cursor.put, Cursor.put_ne c p _ h.2, set_ne h.1]

theorem Cursor.put_at : ∀ (c : Cursor) (p : Int) (s : Mem), c.cells.Nodup → c.at_ (c.put p s) p
  | [], _, _, _ => fun e he => by simp at he
  | e :: c, p, s, hn => by
    simp only [Cursor.cells, List.map_cons, List.nodup_cons] at hn
    intro e' he'
    rcases List.mem_cons.1 he' with rfl | he'
    · rw [Cursor.put, Cursor.put_ne c p _ hn.1, set_eq]
    · exact Cursor.put_at c p _ hn.2 e' he'

/-- Position and the other dwords determine the memory. -/
theorem Cursor.put_eq {c : Cursor} {p : Int} {s s' : Mem} (hn : c.cells.Nodup) (h : c.at_ s' p) (ho : Only c.cells s s') : s' = c.put p s := by
  funext x
  by_cases hx : x ∈ c.cells
  · obtain ⟨e, he, rfl⟩ := List.mem_map.1 hx
    rw [h e he, Cursor.put_at c p s hn e he]
  · rw [ho x hx, Cursor.put_ne c p s hx]

theorem Cursor.put_put {c : Cursor} {p q : Int} {s : Mem} (hn : c.cells.Nodup) : c.put p (c.put q s) = c.put p s :=
  Cursor.put_eq hn (Cursor.put_at c _ _ hn) (fun x hx => (Cursor.put_ne _ _ _ hx).trans (Cursor.put_ne _ _ _ hx))

/-- vararray.py:73-98, 443-452: triggers that move the cursor `c` by `2 ^ i` if bit `i` of `lv` is set; the last one goes on to `fin`. -/
def BitsAt (L : Layout) (A : Nat → Nat) (k lv : Nat) (c : Cursor) (fin : Nat) : Prop :=
  ∀ i ≤ k, (⟨A i, ⟨[(cMemX lv .atLeast 1 (pow2 i)).c], (c.move (2 ^ i : Nat)).map PA.a⟩, some (if i = 0 then fin else A (i - 1)), false⟩ : SBlk) ∈ L.P.blks

theorem cMemX_bit (s : Mem) (lv : Nat) {i : Nat} (hi : i < 32) : (cMemX lv .atLeast 1 (pow2 i)).holds s = (s lv).toNat.testBit i := by
  rw [cMemX_holds, pow2_bit _ hi]
  rfl

theorem bits_runs {L : Layout} (hw : L.Wf) {A : Nat → Nat} {lv : Nat} {c : Cursor} {fin : Nat} (hn : c.cells.Nodup) (hlv : L.cell lv) (hlc : lv ∉ c.cells) (hc : ∀ x ∈ c.cells, L.cell x) :
    ∀ (k : Nat) (p : Int) (s : Mem), k < 32 → BitsAt L A k lv c fin → c.at_ s p → L.Runs s (A k) (c.put (p + ((s lv).toNat % 2 ^ (k + 1) : Nat)) s) fin := by
  have one : ∀ (k : Nat) (p : Int) (s : Mem) (n : Nat), k < 32 → (⟨A k, ⟨[(cMemX lv .atLeast 1 (pow2 k)).c], (c.move (2 ^ k : Nat)).map PA.a⟩, some n, false⟩ : SBlk) ∈ L.P.blks → c.at_ s p →
      L.Runs s (A k) (c.put (p + ((s lv).toNat / 2 ^ k % 2 * 2 ^ k : Nat)) s) n := by
    intro k p s n hk hb hp
    have hcs : PlacedC (A k + 8) [cMemX lv .atLeast 1 (pow2 k)] := ⟨cMemX_static _ _ _ _, trivial⟩
    have has : PlacedA (A k + 328) (c.move (2 ^ k : Nat)) := by
      have := Cursor.move_placed c (2 ^ k : Nat) (A k + 328) [] trivial
      rwa [List.append_nil] at this
    obtain ⟨e1, e2⟩ := hcs.spec (L := L) (s := s)
    obtain ⟨f1, f2⟩ := has.spec (L := L) (s := s)
    have hok : ActsOk L (c.move (2 ^ k : Nat)) s := by
      have := Cursor.move_ok (L := L) c (2 ^ k : Nat) s [] hc trivial
      rwa [List.append_nil] at this
    have := Layout.Runs.trig hw hb rfl rfl (s := s) (e2 (by intro q hq; simp only [List.mem_singleton] at hq; subst hq; exact cMemX_ok hlv _ _ _ _)) (fun _ => f2 hok)
    simp only [SBlk.exec] at this
    have e1' : condsS s [(cMemX lv .atLeast 1 (pow2 k)).c] (A k + 8) = (s lv).toNat.testBit k := by
      have := e1
      simp only [List.map_cons, List.map_nil, holdsAll_cons, holdsAll_nil, Bool.and_true, cMemX_bit _ _ hk] at this
      exact this
    rw [e1', f1] at this
    rw [Nat.testBit_eq_decide_div_mod_eq] at this
    rcases Nat.mod_two_eq_zero_or_one ((s lv).toNat / 2 ^ k) with h | h
    · rw [h] at this ⊢
      simp only [Nat.zero_ne_one, decide_false, Bool.false_eq_true, if_false] at this
      rw [Nat.zero_mul, ← Cursor.put_eq hn (s' := s) (by simpa using hp) (Only.refl _ _)]
      exact this
    · rw [h] at this ⊢
      simp only [decide_true, if_true] at this
      rw [Nat.one_mul, ← Cursor.put_eq hn (Cursor.move_at c _ s p hn hp) (fun x hx => Cursor.move_ne c _ s x hx)]
      exact this
  intro k
  induction k with
  | zero =>
    intro p s hk hb hp
    have := one 0 p s fin hk (hb 0 (Nat.le_refl _)) hp
    simpa using this
  | succ k ih =>
    intro p s hk hb hp
    have h1 := one (k + 1) p s (A k) hk (by have := hb (k + 1) (Nat.le_refl _); simpa using this) hp
    have h2 := ih _ _ (by omega) (fun i hi => hb i (by omega)) (Cursor.put_at c (p + ((s lv).toNat / 2 ^ (k + 1) % 2 * 2 ^ (k + 1) : Nat)) s hn)
    rw [Cursor.put_ne _ _ _ hlc] at h2
    have h3 := h1.trans h2
    rw [Cursor.put_put hn] at h3
    have e : (p + ((s lv).toNat / 2 ^ (k + 1) % 2 * 2 ^ (k + 1) : Nat) + ((s lv).toNat % 2 ^ (k + 1) : Nat) : Int) = p + ((s lv).toNat % 2 ^ (k + 1 + 1) : Nat) := by
      have := Nat.mod_mul (x := (s lv).toNat) (a := 2 ^ (k + 1)) (b := 2)
      rw [← Nat.pow_succ] at this
      rw [this, Nat.mul_comm (2 ^ (k + 1))]
      omega
    rw [e] at h3
    exact h3

/-- A variable adds to its own next pointer and so jumps relative to it. -/
theorem Layout.Steps.varSelf {L : Layout} (hw : L.Wf) {q : QS} {v n : Nat} (hv : v ∈ L.P.vars) (hn : (q.K v).nxt = some n) (hd : (q.K v).dst = some (epd (v + 4))) (he : EpdOK (v + 4))
    {md : Mod} (hmd : (q.K v).md = some md) :
    L.Steps q v { q with K := q.K.up v fun k => { k with nxt := some (arith md (BitVec.ofNat 32 n) (q.s (v + 348))).toNat } } (arith md (BitVec.ofNat 32 n) (q.s (v + 348))).toNat := by
  intro m hm
  have hat := hm.vnext hw hv (n := (arith md (BitVec.ofNat 32 n) (q.s (v + 348))).toNat)
  have hs := Eud.SC.step_var (hm.ok.prog.vars v hv) (hm.kn.md v hv md hmd) (d := .mem (v + 4)) (by unfold varDst; rw [hm.kn.dst v hv _ hd]; exact dstOf_epd he)
    ⟨by simp only [Dst.addr]; omega, by simp only [Dst.addr]; omega⟩
  have e1 : (varAct m v md (.mem (v + 4))).apply m = m.set (v + 4) (arith md (BitVec.ofNat 32 n) (q.s (v + 348))) := by
    simp only [varAct, Act.apply, Dst.addr]
    rw [hm.ok.mask v hv, modify_full, hm.kn.nxt v hv n hn]
    rw [← hm.vw, Layout.view_at (hw.val v hv)]
  rw [e1, set_eq] at hs
  rw [BitVec.ofNat_toNat, BitVec.setWidth_eq] at hat
  exact ⟨_, Reaches.step hs, hat⟩

/-! ## The shared triggers -/

/-- `SetMemory(.., md, ..)` at `p`: destination and value are the dwords at `p + 16` and `p + 20`. -/
def aPutM (p : Nat) (md : Mod) : PA := ⟨⟨none, md, none, some 0xFFFFFFFF⟩, some p⟩

theorem aPutM_res {s : Mem} {p d : Nat} {md : Mod} (h : s (p + 16) = epd d) (he : EpdOK d) : (aPutM p md).a.res s p = ⟨.mem d, md, s (p + 20), 0xFFFFFFFF⟩ := by
  simp only [aPutM, SAct.res, h, dstOf_epd he, Option.getD_none, Option.getD_some]

theorem aPutM_run {s : Mem} {p d : Nat} {md : Mod} (h : s (p + 16) = epd d) (he : EpdOK d) : (aPutM p md).run s = s.set d (arith md (s d) (s (p + 20))) := by
  unfold PA.run
  rw [show (aPutM p md).pos.getD 0 = p from rfl, aPutM_res h he]
  simp only [Act.apply, Dst.addr]
  congr 1
  exact modify_full _ _ _

theorem actsOk_putM {L : Layout} {s : Mem} {p d : Nat} {md : Mod} (h : s (p + 16) = epd d) (he : EpdOK d) (hc : L.cell d) {ps : List PA} (hr : ActsOk L ps (s.set d (arith md (s d) (s (p + 20))))) :
    ActsOk L (aPutM p md :: ps) s := by
  refine ⟨?_, ?_, ?_⟩
  · intro _
    rw [show (aPutM p md).pos.getD 0 = p from rfl, h, dstOf_epd he]
    rfl
  · rw [show (aPutM p md).pos.getD 0 = p from rfl, aPutM_res h he]
    exact hc
  · rw [aPutM_run h he]
    exact hr

/-- vararray.py:66-99: the trigger that hands over the value of an element (`g`), those that turn an index into an address (`gi`, `ig`) and into an EPD (`si`, `is`), and the dword
for the index. -/
structure VSh where
  g : Nat
  gi : Nat
  si : Nat
  lv : Nat
  ig : Nat → Nat
  is : Nat → Nat

/-- The dwords of the shared triggers that change. -/
def VSh.scr (V : VSh) : List Nat := [V.g + 4, V.g + 344, V.g + 348, V.gi + 4, V.gi + 344, V.gi + 348, V.si + 4, V.si + 344, V.si + 348, V.lv]

/-- vararray.py:77-80 -/
def VSh.giActs (V : VSh) : List PA := [aPutM (V.gi + 328) .add, aMem (V.gi + 348) .set 0]

structure VSh.Ok (L : Layout) (V : VSh) : Prop where
  bg : (⟨V.g, ⟨[], [aPutM (V.g + 328) .set].map PA.a⟩, none, false⟩ : SBlk) ∈ L.P.blks
  bgi : (⟨V.gi, ⟨[], V.giActs.map PA.a⟩, none, false⟩ : SBlk) ∈ L.P.blks
  bsi : (⟨V.si, ⟨[], [aPutM (V.si + 328) .set].map PA.a⟩, none, false⟩ : SBlk) ∈ L.P.blks
  big : BitsAt L V.ig 27 V.lv [(V.gi + 348, 0, 72)] V.gi
  bis : BitsAt L V.is 27 V.lv [(V.si + 344, 0, 18)] V.si
  cell : ∀ x ∈ V.scr, L.cell x
  nd : V.scr.Nodup
  eg : EpdOK (V.g + 348)
  egi : EpdOK (V.gi + 4)
  esi : EpdOK (V.si + 344) ∧ EpdOK (V.si + 348)
  elv : EpdOK V.lv
  lg : V.g < 2 ^ 32
  lsi : V.si < 2 ^ 32
  lig : ∀ k ≤ 27, V.ig k < 2 ^ 32
  lis : ∀ k ≤ 27, V.is k < 2 ^ 32

/-- A trigger that only does a filled-in action and goes where its next pointer says. -/
theorem put_runs {L : Layout} (hw : L.Wf) {t d n : Nat} (hb : (⟨t, ⟨[], [aPutM (t + 328) .set].map PA.a⟩, none, false⟩ : SBlk) ∈ L.P.blks) (h4 : L.cell (t + 4)) {s : Mem}
    (hd : s (t + 344) = epd d) (he : EpdOK d) (hc : L.cell d) (hn : s (t + 4) = BitVec.ofNat 32 n) (hlt : n < 2 ^ 32) (hd4 : d ≠ t + 4) : L.Runs s t (s.set d (s (t + 348))) n := by
  have h := Layout.Runs.dyn hw (cs := []) (as := [aPutM (t + 328) .set]) hb h4.2 trivial ⟨rfl, trivial⟩ (s := s) (by simp) (fun _ => actsOk_putM hd he hc trivial)
  rw [if_pos (holdsAll_nil s)] at h
  simp only [runPA_cons, runPA_nil, aPutM_run (s := s) (p := t + 328) hd he] at h
  rw [set_ne (Ne.symm hd4), hn, BitVec.toNat_ofNat, Nat.mod_eq_of_lt hlt] at h
  exact h

theorem BitsAt.le {L : Layout} {A : Nat → Nat} {k k' lv fin : Nat} {c : Cursor} (h : BitsAt L A k lv c fin) (hk : k' ≤ k) : BitsAt L A k' lv c fin := fun i hi => h i (by omega)

/-- One dword, moved by `c` times a dword. -/
theorem bits1_runs {L : Layout} (hw : L.Wf) {A : Nat → Nat} {lv x c fin k : Nat} (hlv : L.cell lv) (hx : L.cell x) (hne : lv ≠ x) (hk : k ≤ 27) (hb : BitsAt L A 27 lv [(x, 0, (c : Int))] fin) {s : Mem}
    (hs : (s lv).toNat < 2 ^ (k + 1)) : L.Runs s (A k) (s.set x (s x + BitVec.ofNat 32 c * s lv)) fin := by
  have h := bits_runs hw (A := A) (lv := lv) (c := [(x, ((s x).toNat : Int), (c : Int))]) (fin := fin) (by simp [Cursor.cells]) hlv (by simpa [Cursor.cells] using hne)
    (by simpa [Cursor.cells] using hx) k 0 s (by omega) (fun i hi => hb i (by omega)) (by
      intro e he
      rw [List.mem_singleton.1 he]
      simp)
  rw [Nat.mod_eq_of_lt hs] at h
  have e : BitVec.ofInt 32 (((s x).toNat : Int) + (c : Int) * (0 + ((s lv).toNat : Nat))) = s x + BitVec.ofNat 32 c * s lv := by
    rw [Int.zero_add, ← Int.natCast_mul, ← Int.natCast_add, ofInt_nat]
    apply BitVec.eq_of_toNat_eq
    simp [BitVec.toNat_add, BitVec.toNat_mul]
  simp only [Cursor.put, e] at h
  exact h

namespace VSh

variable {L : Layout} {V : VSh}

/-- vararray.py:74-89: from an index to the address of an element. -/
theorem conv_get (hw : L.Wf) (hV : V.Ok L) {k : Nat} (hk : k ≤ 27) {s : Mem} (hi : (s V.lv).toNat < 2 ^ (k + 1)) (h0 : s (V.gi + 348) = 0) (hd : s (V.gi + 344) = epd (V.gi + 4)) :
    L.Runs s (V.ig k) (s.set (V.gi + 4) (s (V.gi + 4) + 72 * s V.lv)) (s (V.gi + 4) + 72 * s V.lv).toNat := by
  have c := hV.cell
  have nd := hV.nd
  simp only [scr, List.mem_cons, List.not_mem_nil, or_false, forall_eq_or_imp, forall_eq] at c
  simp only [scr, List.nodup_cons, List.mem_cons, List.not_mem_nil, or_false, not_or] at nd
  obtain ⟨c1, c2, c3, c4, c5, c6, c7, c8, c9, c10⟩ := c
  have h1 := bits1_runs hw c10 c6 (Ne.symm nd.2.2.2.2.2.1.2.2.2) hk hV.big hi
  rw [h0] at h1
  refine h1.trans ?_
  have hg := Layout.Runs.dyn hw (cs := []) (as := V.giActs) hV.bgi c4.2 trivial ⟨rfl, aMem_static _ _ _, trivial⟩ (s := s.set (V.gi + 348) (0 + BitVec.ofNat 32 72 * s V.lv)) (by simp)
    (fun _ => actsOk_putM (d := V.gi + 4) (by rw [set_ne (by omega)]; exact hd) hV.egi c4 (actsOk_mem c6 trivial))
  rw [if_pos (holdsAll_nil _)] at hg
  simp only [giActs, runPA_cons, runPA_nil, aMem_run, aPutM_run (s := s.set (V.gi + 348) (0 + BitVec.ofNat 32 72 * s V.lv)) (p := V.gi + 328) (md := .add) (d := V.gi + 4)
    (by rw [set_ne (by omega)]; exact hd) hV.egi, arith] at hg
  have e : ((s.set (V.gi + 348) (0 + BitVec.ofNat 32 72 * s V.lv)).set (V.gi + 4) ((s.set (V.gi + 348) (0 + BitVec.ofNat 32 72 * s V.lv)) (V.gi + 4) +
      (s.set (V.gi + 348) (0 + BitVec.ofNat 32 72 * s V.lv)) (V.gi + 328 + 20))).set (V.gi + 348) 0 = s.set (V.gi + 4) (s (V.gi + 4) + 72 * s V.lv) := by
    rw [show V.gi + 328 + 20 = V.gi + 348 by omega, set_eq, set_ne (show V.gi + 4 ≠ V.gi + 348 by omega), show ∀ w : W, (0 : W) + w = w from fun w => BitVec.zero_add w]
    funext x
    simp only [get_set]
    split
    · rename_i h; subst h; rw [if_neg (by omega), h0]
    · split
      · rfl
      · rfl
  rw [e, set_eq] at hg
  exact hg

/-- vararray.py:91-99: the value goes to the element with the index. -/
theorem conv_set (hw : L.Wf) (hV : V.Ok L) {k : Nat} (hk : k ≤ 27) {s : Mem} (hi : (s V.lv).toNat < 2 ^ (k + 1)) {d n : Nat} (hd : s (V.si + 344) + 18 * s V.lv = epd d) (he : EpdOK d) (hc : L.cell d)
    (hn : s (V.si + 4) = BitVec.ofNat 32 n) (hlt : n < 2 ^ 32) (hd4 : d ≠ V.si + 4) : L.Runs s (V.is k) ((s.set (V.si + 344) (epd d)).set d (s (V.si + 348))) n := by
  have c := hV.cell
  have nd := hV.nd
  simp only [scr, List.mem_cons, List.not_mem_nil, or_false, forall_eq_or_imp, forall_eq] at c
  simp only [scr, List.nodup_cons, List.mem_cons, List.not_mem_nil, or_false, not_or] at nd
  obtain ⟨c1, c2, c3, c4, c5, c6, c7, c8, c9, c10⟩ := c
  have h1 := bits1_runs hw c10 c8 (Ne.symm nd.2.2.2.2.2.2.2.1.2) hk hV.bis hi
  rw [show s (V.si + 344) + BitVec.ofNat 32 18 * s V.lv = epd d from hd] at h1
  refine h1.trans ?_
  have := put_runs hw hV.bsi c7 (s := s.set (V.si + 344) (epd d)) (d := d) (n := n) (set_eq _ _ _) he hc (by rw [set_ne (by omega), hn]) hlt hd4
  rwa [set_ne (show V.si + 348 ≠ V.si + 344 by omega)] at this

/-- An element at `p` as `_EUDVArrayData` and the constructor make it (vararray.py:41-63, 128-138). -/
structure Elem (V : VSh) (s : Mem) (p : Nat) : Prop where
  nxt : s (p + 4) = BitVec.ofNat 32 V.g
  dst : s (p + 344) = epd (V.g + 348)
  md : s (p + 352) = pmod .set

/-- The dwords of an element. -/
def dws (p : Nat) : List Nat := [p + 4, p + 344, p + 348, p + 352]

/-- Through an element, its value gets to `d`. -/
theorem elem_runs (hw : L.Wf) (hV : V.Ok L) {p d n : Nat} (hp : PVar L p) {s : Mem} (hE : V.Elem s p) (hpn : ∀ x ∈ dws p, x ∉ V.scr) (hd : s (V.g + 344) = epd d) (he : EpdOK d) (hc : L.cell d)
    (hdn : d ∉ V.scr) (hn : s (V.g + 4) = BitVec.ofNat 32 n) (hlt : n < 2 ^ 32) : L.Runs s p ((s.set (V.g + 348) (s (p + 348))).set d (s (p + 348))) n := by
  have c1 : L.cell (V.g + 4) := hV.cell _ (by simp [scr])
  have c3 : L.cell (V.g + 348) := hV.cell _ (by simp [scr])
  have h1 := Layout.Runs.pvar hp hE.md hE.dst hV.eg c3
  have : p + 4 ≠ V.g + 348 := fun e => hpn (p + 4) (by simp [dws]) (by simp [scr, e])
  rw [set_ne this, hE.nxt, BitVec.toNat_ofNat, Nat.mod_eq_of_lt hV.lg] at h1
  refine h1.trans ?_
  have h2 := put_runs hw hV.bg c1 (s := s.set (V.g + 348) (s (p + 348))) (d := d) (n := n) (by rw [set_ne (by omega)]; exact hd) he hc (by rw [set_ne (by omega)]; exact hn) hlt
    (fun e => hdn (by simp [scr, e]))
  rwa [set_eq] at h2

/-! ## Reading an element -/

/-- `SetNextPtr(_getter, nexttrg)`, `SetMemoryEPD(_getter_dst, SetTo, dst)` -/
def gSet (V : VSh) (n d : Nat) : List QA := [.cell (aMem (V.g + 4) .set (BitVec.ofNat 32 n)), .cell (aMem (V.g + 344) .set (epd d))]

/-- vararray.py:159-228 `get`: the actions of the trigger, for an array `a` and an index, each constant or variable.  The value goes to the dword `d`, and control to `n`; `k` is the highest bit
of the array's size. -/
def getQ (V : VSh) (k n d : Nat) : Src → Src → List QA
  | .const _, .const _ => V.gSet n d
  | .var v, .const i => [.vnext v (72 * i).toNat, .dest v (epd (v + 4)), .modi v .add] ++ V.gSet n d
  | .const a, .var i => [.vnext i (V.ig k), .dest i (epd V.lv), .modi i .set, .cell (aMem (V.gi + 4) .set a), .cell (aMem (V.gi + 344) .set (epd (V.gi + 4)))] ++ V.gSet n d
  | .var v, .var i => [.vnext i v, .dest i (epd V.lv), .modi i .set, .vnext v (V.ig k), .dest v (epd (V.gi + 4)), .modi v .set, .cell (aMem (V.gi + 344) .set (epd (V.gi + 4)))] ++ V.gSet n d

/-- Where this trigger goes. -/
def getN : Src → Src → Nat
  | .const a, .const i => (a + 72 * i).toNat
  | .var v, .const _ => v
  | _, .var i => i

/-- The memory afterwards, when the element is at `p`. -/
def getMem (V : VSh) (n d p : Nat) (idx : Src) (s : Mem) : Mem :=
  let s1 := match idx with
    | .const _ => s
    | .var i => ((s.set V.lv (s (i + 348))).set (V.gi + 344) (epd (V.gi + 4))).set (V.gi + 4) (BitVec.ofNat 32 p)
  (((s1.set (V.g + 4) (BitVec.ofNat 32 n)).set (V.g + 344) (epd d)).set (V.g + 348) (s (p + 348))).set d (s (p + 348))

def GetRel (L : Layout) (V : VSh) (k n d : Nat) (a idx : Src) (s s' : Mem) : Prop :=
  ∃ p, p < 2 ^ 32 ∧ PVar L p ∧ V.Elem s p ∧ (∀ x ∈ dws p, x ∉ V.scr) ∧ a.valM s + 72 * idx.valM s = BitVec.ofNat 32 p ∧ (∀ i, idx = .var i → (idx.valM s).toNat < 2 ^ (k + 1)) ∧
    s (V.gi + 348) = 0 ∧ s' = V.getMem n d p idx s

/-- Variables among the operands. -/
def VarOk (L : Layout) (V : VSh) (x : Src) : Prop := ∀ v, x = .var v → v ∈ L.P.vars ∧ v + 348 ∉ V.scr ∧ EpdOK (v + 4) ∧ EpdOK (v + 344)

theorem get_code (hw : L.Wf) (hV : V.Ok L) {k n d t : Nat} {a idx : Src} (hk : k ≤ 27) (hn : n < 2 ^ 32) (hd : EpdOK d) (hdc : L.cell d) (hdn : d ∉ V.scr) (ha : VarOk L V a) (hi : VarOk L V idx)
    (hai : ∀ v, a = .var v → idx ≠ .var v) (hb : (⟨t, ⟨[], (V.getQ k n d a idx).map QA.act⟩, some (getN a idx), false⟩ : SBlk) ∈ L.P.blks) {r b c : Nat} :
    Code L r b c (.prim (GetRel L V k n d a idx)) t n := by
  refine .prim ?_
  rintro s s' ⟨p, hp, hpv, hE, hpn, hea, hki, h0, rfl⟩
  have c := hV.cell
  have nd := hV.nd
  simp only [scr, List.mem_cons, List.not_mem_nil, or_false, forall_eq_or_imp, forall_eq] at c
  simp only [scr, List.nodup_cons, List.mem_cons, List.not_mem_nil, or_false, not_or] at nd
  obtain ⟨c1, c2, c3, c4, c5, c6, c7, c8, c9, c10⟩ := c
  have cellOk : ∀ {x : Nat} {w : W} {q : QS}, L.cell x → QA.Ok L (.cell (aMem x .set w)) q := fun h => ⟨(by intro h; cases h), h⟩
  have fin : ∀ s1 : Mem, (∀ x, x ∉ V.scr → s1 x = s x) → s1 (V.g + 344) = epd d → s1 (V.g + 4) = BitVec.ofNat 32 n → L.Runs s1 p ((s1.set (V.g + 348) (s (p + 348))).set d (s (p + 348))) n := by
    intro s1 h1 h2 h3
    have e := h1 _ (hpn (p + 348) (by simp [dws]))
    rw [← e]
    exact elem_runs hw hV hpv ⟨(h1 _ (hpn _ (by simp [dws]))).trans hE.nxt, (h1 _ (hpn _ (by simp [dws]))).trans hE.dst, (h1 _ (hpn _ (by simp [dws]))).trans hE.md⟩ hpn h2 hd hdc hdn h3 hn
  have scrne : ∀ {x y : Nat}, x ∉ V.scr → y ∈ V.scr → x ≠ y := fun h1 h2 e => h1 (e ▸ h2)
  cases idx with
  | const i =>
    simp only [Src.valM] at hea
    have f := fin ((s.set (V.g + 4) (BitVec.ofNat 32 n)).set (V.g + 344) (epd d)) (fun x hx => by rw [set_ne (scrne hx (by simp [scr])), set_ne (scrne hx (by simp [scr]))]) (set_eq _ _ _)
      (by rw [set_ne (by omega), set_eq])
    cases a with
    | const a =>
      simp only [Src.valM] at hea
      have g1 := Layout.Steps.trig hw (cs := []) (as := V.getQ k n d (.const a) (.const i)) (nx := some (getN (.const a) (.const i))) hb trivial ⟨aMem_static _ _ _, aMem_static _ _ _, trivial⟩
        (q := ⟨[], KB.none, s⟩) (by simp) (fun _ => ⟨cellOk c1, cellOk c2, trivial⟩) (n := getN (.const a) (.const i)) rfl
      rw [if_pos (holdsAll_nil _)] at g1
      have g2 := Layout.Steps.runs hw g1 (by simp [getQ, gSet, runQA, QA.run])
      rw [getN, hea, BitVec.toNat_ofNat, Nat.mod_eq_of_lt hp] at g2
      simp only [getQ, gSet, runQA, QA.run, aMem_run, arith] at g2
      exact g2.trans f
    | var v =>
      obtain ⟨v1, v2, v3, v4⟩ := ha v rfl
      simp only [Src.valM] at hea
      have g1 := Layout.Steps.trig hw (cs := []) (as := V.getQ k n d (.var v) (.const i)) (nx := some (getN (.var v) (.const i))) hb trivial ⟨aMem_static _ _ _, aMem_static _ _ _, trivial⟩
        (q := ⟨[], KB.none, s⟩) (by simp) (fun _ => ⟨⟨v1, BitVec.isLt _⟩, v1, v1, cellOk c1, cellOk c2, trivial⟩) (n := v) rfl
      rw [if_pos (holdsAll_nil _)] at g1
      have g2 := g1.trans (Layout.Steps.varSelf hw v1 (n := (72 * i).toNat) (md := .add) (by simp [getQ, gSet, runQA, QA.run, KB.up]) (by simp [getQ, gSet, runQA, QA.run, KB.up]) v3
        (by simp [getQ, gSet, runQA, QA.run, KB.up]))
      have g3 := Layout.Steps.runs hw g2 (by simp [getQ, gSet, runQA, QA.run])
      simp only [getQ, gSet, runQA, QA.run, List.cons_append, List.nil_append, aMem_run, arith] at g3
      rw [set_ne (scrne v2 (by simp [scr])), set_ne (scrne v2 (by simp [scr])), BitVec.ofNat_toNat, BitVec.setWidth_eq, BitVec.add_comm, hea, BitVec.toNat_ofNat, Nat.mod_eq_of_lt hp] at g3
      exact g3.trans f
  | var i =>
    obtain ⟨i1, i2, i3, i4⟩ := hi i rfl
    have hki' := hki i rfl
    have hea' := hea
    simp only [Src.valM] at hki'
    rw [show (Src.var i).valM s = s (i + 348) from rfl] at hea hea'
    let pre : Nat → W := (((((s.set V.lv (s (i + 348))).set (V.gi + 344) (epd (V.gi + 4))).set (V.gi + 4) (a.valM s)).set (V.g + 4) (BitVec.ofNat 32 n)).set (V.g + 344) (epd d))
    have tail : ∀ {s1 : Mem} {t : Nat}, (∀ x, s1 x = pre x) → L.Runs s t s1 (V.ig k) → L.Runs s t (V.getMem n d p (.var i) s) n := by
      intro s1 t e1 hr
      obtain rfl : s1 = pre := funext e1
      have p1 : pre V.lv = s (i + 348) := by simp only [pre, get_set]; grind
      have p2 : pre (V.gi + 348) = 0 := by simp only [pre, get_set]; grind
      have p3 : pre (V.gi + 344) = epd (V.gi + 4) := by simp only [pre, get_set]; grind
      have p4 : pre (V.gi + 4) = a.valM s := by simp only [pre, get_set]; grind
      have g := conv_get hw hV hk (s := pre) (by rw [p1]; exact hki') p2 p3
      rw [p1, p4, hea', BitVec.toNat_ofNat, Nat.mod_eq_of_lt hp] at g
      have f := fin (Mem.set pre (V.gi + 4) (BitVec.ofNat 32 p)) (fun x hx => by
        have : ∀ y ∈ V.scr, x ≠ y := fun y hy => scrne hx hy
        simp only [scr, List.mem_cons, List.not_mem_nil, or_false, forall_eq_or_imp, forall_eq] at this
        simp only [pre, get_set]
        grind) (by simp only [pre, get_set]; grind) (by simp only [pre, get_set]; grind)
      have e2 : V.getMem n d p (.var i) s = ((Mem.set pre (V.gi + 4) (BitVec.ofNat 32 p)).set (V.g + 348) (s (p + 348))).set d (s (p + 348)) := by
        funext x
        simp only [getMem, pre, get_set]
        grind
      rw [e2]
      exact (hr.trans g).trans f
    cases a with
    | const a =>
      simp only [Src.valM] at hea
      have g1 := Layout.Steps.trig hw (cs := []) (as := V.getQ k n d (.const a) (.var i)) (nx := some (getN (.const a) (.var i))) hb trivial
        ⟨aMem_static _ _ _, aMem_static _ _ _, aMem_static _ _ _, aMem_static _ _ _, trivial⟩
        (q := ⟨[], KB.none, s⟩) (by simp) (fun _ => ⟨⟨i1, hV.lig k hk⟩, i1, i1, cellOk c4, cellOk c5, cellOk c1, cellOk c2, trivial⟩) (n := i) rfl
      rw [if_pos (holdsAll_nil _)] at g1
      have g2 := g1.trans (Layout.Steps.var hw i1 (n := V.ig k) (md := .set) (d := .mem V.lv) (w := epd V.lv) (by simp [getQ, gSet, runQA, QA.run, KB.up]) (hV.lig k hk)
        (by simp [getQ, gSet, runQA, QA.run, KB.up]) (dstOf_epd hV.elv) c10 (by simp [getQ, gSet, runQA, QA.run, KB.up]))
      have g3 := Layout.Steps.runs hw g2 (by simp [getQ, gSet, runQA, QA.run])
      simp only [getQ, gSet, runQA, QA.run, List.cons_append, List.nil_append, aMem_run, arith, Dst.addr] at g3
      refine tail ?_ g3
      intro x
      rw [set_ne (scrne i2 (by simp [scr])), set_ne (scrne i2 (by simp [scr])), set_ne (scrne i2 (by simp [scr])), set_ne (scrne i2 (by simp [scr]))]
      simp only [pre, get_set]
      grind
    | var v =>
      obtain ⟨v1, v2, v3, v4⟩ := ha v rfl
      have hvi : v ≠ i := fun e => hai v rfl (by rw [e])
      have hiv := Ne.symm hvi
      have hvl : v < 2 ^ 32 := by have := v3.2.1; omega
      simp only [Src.valM] at hea
      have g1 := Layout.Steps.trig hw (cs := []) (as := V.getQ k n d (.var v) (.var i)) (nx := some (getN (.var v) (.var i))) hb trivial
        ⟨aMem_static _ _ _, aMem_static _ _ _, aMem_static _ _ _, trivial⟩
        (q := ⟨[], KB.none, s⟩) (by simp) (fun _ => ⟨⟨i1, hvl⟩, i1, i1, ⟨v1, hV.lig k hk⟩, v1, v1, cellOk c5, cellOk c1, cellOk c2, trivial⟩) (n := i) rfl
      rw [if_pos (holdsAll_nil _)] at g1
      have g2 := g1.trans (Layout.Steps.var hw i1 (n := v) (md := .set) (d := .mem V.lv) (w := epd V.lv) (by simp [getQ, gSet, runQA, QA.run, KB.up, hiv, hvi]) hvl
        (by simp [getQ, gSet, runQA, QA.run, KB.up, hiv, hvi]) (dstOf_epd hV.elv) c10 (by simp [getQ, gSet, runQA, QA.run, KB.up, hiv, hvi]))
      have g2 := g2.trans (Layout.Steps.var hw v1 (n := V.ig k) (md := .set) (d := .mem (V.gi + 4)) (w := epd (V.gi + 4)) (by simp [getQ, gSet, runQA, QA.run, KB.up, hiv, hvi]) (hV.lig k hk)
        (by simp [getQ, gSet, runQA, QA.run, KB.up, hiv, hvi]) (dstOf_epd hV.egi) c4 (by simp [getQ, gSet, runQA, QA.run, KB.up, hiv, hvi]))
      have g3 := Layout.Steps.runs hw g2 (by simp [getQ, gSet, runQA, QA.run])
      simp only [getQ, gSet, runQA, QA.run, List.cons_append, List.nil_append, aMem_run, arith, Dst.addr] at g3
      refine tail ?_ g3
      intro x
      rw [set_ne (scrne i2 (by simp [scr])), set_ne (scrne i2 (by simp [scr])), set_ne (scrne i2 (by simp [scr])), set_ne (scrne v2 (by simp [scr])), set_ne (scrne v2 (by simp [scr])),
        set_ne (scrne v2 (by simp [scr])), set_ne (scrne v2 (by simp [scr]))]
      simp only [pre, get_set]
      grind

/-! ## Writing an element -/

/-- vararray.py:228-327 `set` without the case of index and value being the same variable: the actions of the trigger, for the EPD `e` of the array, the value `x` and the index, each constant or
variable.  Control goes on to `n`; `k` is the highest bit of the array's size. -/
def setQ (V : VSh) (k n : Nat) : Src → Src → Src → List QA
  | .const e, .var v, .const i => [.vnext v n, .dest v (87 + e + 18 * i), .modi v .set]
  | .var e, .const x, .const i => [.cell (aMem (V.si + 4) .set (BitVec.ofNat 32 n)), .cell (aMem (V.si + 344) .set (87 + 18 * i)), .vnext e V.si, .dest e (epd (V.si + 344)), .modi e .add,
      .cell (aMem (V.si + 348) .set x)]
  | .var e, .var v, .const i => [.vnext v n, .vnext e v, .dest v (87 + 18 * i), .dest e (epd (v + 344)), .modi e .add, .modi v .set]
  | .const e, .const x, .var i => [.cell (aMem (V.si + 4) .set (BitVec.ofNat 32 n)), .cell (aMem (V.si + 344) .set (87 + e)), .vnext i (V.is k), .dest i (epd V.lv), .modi i .set,
      .cell (aMem (V.si + 348) .set x)]
  | .const e, .var v, .var i => [.cell (aMem (V.si + 4) .set (BitVec.ofNat 32 n)), .vnext v i, .cell (aMem (V.si + 344) .set (87 + e)), .vnext i (V.is k), .dest i (epd V.lv), .modi i .set,
      .dest v (epd (V.si + 348)), .modi v .set]
  | .var e, .const x, .var i => [.cell (aMem (V.si + 4) .set (BitVec.ofNat 32 n)), .vnext e i, .cell (aMem (V.si + 344) .set 87), .dest e (epd (V.si + 344)), .modi e .add, .vnext i (V.is k),
      .dest i (epd V.lv), .modi i .set, .cell (aMem (V.si + 348) .set x)]
  | .var e, .var v, .var i => [.cell (aMem (V.si + 4) .set (BitVec.ofNat 32 n)), .vnext e v, .vnext v i, .cell (aMem (V.si + 344) .set 87), .dest e (epd (V.si + 344)), .modi e .add, .vnext i (V.is k),
      .dest i (epd V.lv), .modi i .set, .dest v (epd (V.si + 348)), .modi v .set]
  | .const _, .const _, .const _ => []

/-- Where this trigger goes: to the first variable. -/
def setN : Src → Src → Src → Nat
  | .var e, _, _ => e
  | .const _, .var v, _ => v
  | .const _, .const _, .var i => i
  | .const _, .const _, .const _ => 0

/-- The memory afterwards, when the element's value is at `d`. -/
def setMem (V : VSh) (n d : Nat) (e x i : Src) (s : Mem) : Mem :=
  match e, x, i with
  | .const _, _, .const _ => s.set d (x.valM s)
  | .var _, .var _, .const _ => s.set d (x.valM s)
  | .var _, .const _, .const _ => (((s.set (V.si + 4) (BitVec.ofNat 32 n)).set (V.si + 344) (epd d)).set (V.si + 348) (x.valM s)).set d (x.valM s)
  | _, _, .var i => ((((s.set V.lv (s (i + 348))).set (V.si + 4) (BitVec.ofNat 32 n)).set (V.si + 344) (epd d)).set (V.si + 348) (x.valM s)).set d (x.valM s)

def SetRel (L : Layout) (V : VSh) (k n : Nat) (e x i : Src) (s s' : Mem) : Prop :=
  ∃ d, EpdOK d ∧ L.cell d ∧ d ∉ V.scr ∧ 87 + e.valM s + 18 * i.valM s = epd d ∧ (∀ u, i = .var u → (i.valM s).toNat < 2 ^ (k + 1)) ∧ s' = V.setMem n d e x i s

theorem set_code (hw : L.Wf) (hV : V.Ok L) {k n t : Nat} {e x i : Src} (hk : k ≤ 27) (hn : n < 2 ^ 32) (he : VarOk L V e) (hx : VarOk L V x) (hi : VarOk L V i)
    (h1 : ∀ v, e = .var v → x ≠ .var v ∧ i ≠ .var v) (h2 : ∀ v, x = .var v → i ≠ .var v) (h3 : ¬ ∃ a b c, e = .const a ∧ x = .const b ∧ i = .const c)
    (hb : (⟨t, ⟨[], (V.setQ k n e x i).map QA.act⟩, some (setN e x i), false⟩ : SBlk) ∈ L.P.blks) {r b c : Nat} :
    Code L r b c (.prim (SetRel L V k n e x i)) t n := by
  refine .prim ?_
  rintro s s' ⟨d, hd, hdc, hdn, hea, hki, rfl⟩
  have c := hV.cell
  have nd := hV.nd
  have hdn' := hdn
  simp only [scr, List.mem_cons, List.not_mem_nil, or_false, forall_eq_or_imp, forall_eq] at c
  simp only [scr, List.nodup_cons, List.mem_cons, List.not_mem_nil, or_false, not_or] at nd hdn'
  obtain ⟨c1, c2, c3, c4, c5, c6, c7, c8, c9, c10⟩ := c
  have cellOk : ∀ {x : Nat} {w : W} {q : QS}, L.cell x → QA.Ok L (.cell (aMem x .set w)) q := fun h => ⟨(by intro h; cases h), h⟩
  have scrne : ∀ {x y : Nat}, x ∉ V.scr → y ∈ V.scr → x ≠ y := fun h1 h2 e => h1 (e ▸ h2)
  have st := aMem_static
  have add3 : ∀ a b c : W, a + c + b = a + b + c := fun a b c => by rw [BitVec.add_assoc, BitVec.add_comm c b, ← BitVec.add_assoc]
  cases i with
  | const i =>
    cases x with
    | const x =>
      cases e with
      | const e => exact absurd ⟨_, _, _, rfl, rfl, rfl⟩ h3
      | var e =>
        obtain ⟨e1, e2, e3, e4⟩ := he e rfl
        simp only [Src.valM] at hea
        have g1 := Layout.Steps.trig hw (cs := []) (as := V.setQ k n (.var e) (.const x) (.const i)) (nx := some e) hb trivial ⟨st _ _ _, st _ _ _, st _ _ _, trivial⟩
          (q := ⟨[], KB.none, s⟩) (by simp) (fun _ => ⟨cellOk c7, cellOk c8, ⟨e1, hV.lsi⟩, e1, e1, cellOk c9, trivial⟩) (n := e) rfl
        rw [if_pos (holdsAll_nil _)] at g1
        have g2 := g1.trans (Layout.Steps.var hw e1 (n := V.si) (md := .add) (d := .mem (V.si + 344)) (w := epd (V.si + 344)) (by simp [setQ, runQA, QA.run, KB.up]) hV.lsi
          (by simp [setQ, runQA, QA.run, KB.up]) (dstOf_epd hV.esi.1) c8 (by simp [setQ, runQA, QA.run, KB.up]))
        have g3 := Layout.Steps.runs hw g2 (by simp [setQ, runQA, QA.run])
        simp only [setQ, runQA, QA.run, aMem_run, arith, Dst.addr] at g3
        have hes : ∀ y ∈ V.scr, e + 348 ≠ y := fun y hy => scrne e2 hy
        simp only [scr, List.mem_cons, List.not_mem_nil, or_false, forall_eq_or_imp, forall_eq] at hes
        generalize hs1 : Mem.set _ _ _ = s1 at g3
        have p1 : s1 = ((s.set (V.si + 4) (BitVec.ofNat 32 n)).set (V.si + 344) (epd d)).set (V.si + 348) x := by
          subst hs1
          funext y
          rw [← hea, add3]
          simp only [get_set]
          grind
        subst p1
        clear hs1
        have g4 := g3.trans (put_runs hw hV.bsi c7 (d := d) (n := n) (by rw [set_ne (by omega), set_eq]) hd hdc (by rw [set_ne (by omega), set_ne (by omega), set_eq]) hn hdn'.2.2.2.2.2.2.1)
        rw [set_eq] at g4
        exact g4
    | var v =>
      obtain ⟨v1, v2, v3, v4⟩ := hx v rfl
      cases e with
      | const e =>
        simp only [Src.valM] at hea
        have g1 := Layout.Steps.trig hw (cs := []) (as := V.setQ k n (.const e) (.var v) (.const i)) (nx := some v) hb trivial trivial
          (q := ⟨[], KB.none, s⟩) (by simp) (fun _ => ⟨⟨v1, hn⟩, v1, v1, trivial⟩) (n := v) rfl
        rw [if_pos (holdsAll_nil _)] at g1
        have g2 := g1.trans (Layout.Steps.var hw v1 (n := n) (md := .set) (d := .mem d) (w := epd d) (by simp [setQ, runQA, QA.run, KB.up]) hn
          (by simp only [setQ, runQA, QA.run, KB.up_eq]; rw [← hea]) (dstOf_epd hd) hdc (by simp [setQ, runQA, QA.run, KB.up]))
        exact Layout.Steps.runs hw g2 (by simp [setQ, runQA, QA.run])
      | var e =>
        obtain ⟨e1, e2, e3, e4⟩ := he e rfl
        have hev : e ≠ v := fun h => (h1 e rfl).1 (by rw [h])
        have hve := Ne.symm hev
        have hvl : v < 2 ^ 32 := by have := v3.2.1; omega
        simp only [Src.valM] at hea
        have g1 := Layout.Steps.trig hw (cs := []) (as := V.setQ k n (.var e) (.var v) (.const i)) (nx := some e) hb trivial trivial
          (q := ⟨[], KB.none, s⟩) (by simp) (fun _ => ⟨⟨v1, hn⟩, ⟨e1, hvl⟩, v1, e1, e1, v1, trivial⟩) (n := e) rfl
        rw [if_pos (holdsAll_nil _)] at g1
        have g2 := g1.trans (Layout.Steps.varDestMod hw e1 v1 (n := v) (md := .add) (w := 87 + 18 * i) (by simp [setQ, runQA, QA.run, KB.up, hev, hve]) hvl
          (by simp [setQ, runQA, QA.run, KB.up, hev, hve]) v4 (by simp [setQ, runQA, QA.run, KB.up, hev, hve]) (by simp [setQ, runQA, QA.run, KB.up, hev, hve]))
        have g3 := g2.trans (Layout.Steps.var hw v1 (n := n) (md := .set) (d := .mem d) (w := epd d) (by simp [setQ, runQA, QA.run, KB.up, hev, hve]) hn
          (by simp only [setQ, runQA, QA.run, KB.up_eq, arith]; rw [add3, hea]) (dstOf_epd hd) hdc (by simp [setQ, runQA, QA.run, KB.up, hev, hve]))
        exact Layout.Steps.runs hw g3 (by simp [setQ, runQA, QA.run])
  | var i =>
    obtain ⟨i1, i2, i3, i4⟩ := hi i rfl
    have hil : i < 2 ^ 32 := by have := i3.2.1; omega
    have hki' := hki i rfl
    have his : ∀ y ∈ V.scr, i + 348 ≠ y := fun y hy => scrne i2 hy
    simp only [scr, List.mem_cons, List.not_mem_nil, or_false, forall_eq_or_imp, forall_eq] at his
    let pre : Nat → W := ((((s.set V.lv (s (i + 348))).set (V.si + 4) (BitVec.ofNat 32 n)).set (V.si + 344) (87 + e.valM s)).set (V.si + 348) (x.valM s))
    have tail : ∀ {s1 : Mem} {t : Nat}, (∀ x, s1 x = pre x) → L.Runs s t s1 (V.is k) → L.Runs s t (V.setMem n d e x (.var i) s) n := by
      intro s1 t e1 hr
      obtain rfl : s1 = pre := funext e1
      have p1 : pre V.lv = s (i + 348) := by simp only [pre, get_set]; grind
      have p2 : pre (V.si + 4) = BitVec.ofNat 32 n := by simp only [pre, get_set]; grind
      have p3 : pre (V.si + 344) = 87 + e.valM s := by simp only [pre, get_set]; grind
      have p4 : pre (V.si + 348) = x.valM s := by simp only [pre, get_set]; grind
      have g := conv_set hw hV hk (s := pre) (d := d) (n := n) (by rw [p1]; exact hki') (by rw [p1, p3]; exact hea) hd hdc p2 hn hdn'.2.2.2.2.2.2.1
      have e2 : V.setMem n d e x (.var i) s = (Mem.set pre (V.si + 344) (epd d)).set d (x.valM s) := by
        have : V.setMem n d e x (.var i) s = ((((s.set V.lv (s (i + 348))).set (V.si + 4) (BitVec.ofNat 32 n)).set (V.si + 344) (epd d)).set (V.si + 348) (x.valM s)).set d (x.valM s) := by
          cases e <;> cases x <;> rfl
        rw [this]
        funext y
        simp only [pre, get_set]
        grind
      rw [p4] at g
      rw [e2]
      exact hr.trans g
    cases x with
    | const x =>
      cases e with
      | const e =>
        have g1 := Layout.Steps.trig hw (cs := []) (as := V.setQ k n (.const e) (.const x) (.var i)) (nx := some i) hb trivial ⟨st _ _ _, st _ _ _, st _ _ _, trivial⟩
          (q := ⟨[], KB.none, s⟩) (by simp) (fun _ => ⟨cellOk c7, cellOk c8, ⟨i1, hV.lis k hk⟩, i1, i1, cellOk c9, trivial⟩) (n := i) rfl
        rw [if_pos (holdsAll_nil _)] at g1
        have g2 := g1.trans (Layout.Steps.var hw i1 (n := V.is k) (md := .set) (d := .mem V.lv) (w := epd V.lv) (by simp [setQ, runQA, QA.run, KB.up]) (hV.lis k hk)
          (by simp [setQ, runQA, QA.run, KB.up]) (dstOf_epd hV.elv) c10 (by simp [setQ, runQA, QA.run, KB.up]))
        have g3 := Layout.Steps.runs hw g2 (by simp [setQ, runQA, QA.run])
        simp only [setQ, runQA, QA.run, aMem_run, arith, Dst.addr] at g3
        refine tail ?_ g3
        intro y
        simp only [pre, get_set, Src.valM]
        grind
      | var e =>
        obtain ⟨e1, e2, e3, e4⟩ := he e rfl
        have hei : e ≠ i := fun h => (h1 e rfl).2 (by rw [h])
        have hie := Ne.symm hei
        have hes : ∀ y ∈ V.scr, e + 348 ≠ y := fun y hy => scrne e2 hy
        simp only [scr, List.mem_cons, List.not_mem_nil, or_false, forall_eq_or_imp, forall_eq] at hes
        have g1 := Layout.Steps.trig hw (cs := []) (as := V.setQ k n (.var e) (.const x) (.var i)) (nx := some e) hb trivial ⟨st _ _ _, st _ _ _, st _ _ _, trivial⟩
          (q := ⟨[], KB.none, s⟩) (by simp) (fun _ => ⟨cellOk c7, ⟨e1, hil⟩, cellOk c8, e1, e1, ⟨i1, hV.lis k hk⟩, i1, i1, cellOk c9, trivial⟩) (n := e) rfl
        rw [if_pos (holdsAll_nil _)] at g1
        have g2 := g1.trans (Layout.Steps.var hw e1 (n := i) (md := .add) (d := .mem (V.si + 344)) (w := epd (V.si + 344)) (by simp [setQ, runQA, QA.run, KB.up, hei, hie]) hil
          (by simp [setQ, runQA, QA.run, KB.up, hei, hie]) (dstOf_epd hV.esi.1) c8 (by simp [setQ, runQA, QA.run, KB.up, hei, hie]))
        have g2 := g2.trans (Layout.Steps.var hw i1 (n := V.is k) (md := .set) (d := .mem V.lv) (w := epd V.lv) (by simp [setQ, runQA, QA.run, KB.up, hei, hie]) (hV.lis k hk)
          (by simp [setQ, runQA, QA.run, KB.up, hei, hie]) (dstOf_epd hV.elv) c10 (by simp [setQ, runQA, QA.run, KB.up, hei, hie]))
        have g3 := Layout.Steps.runs hw g2 (by simp [setQ, runQA, QA.run])
        simp only [setQ, runQA, QA.run, aMem_run, arith, Dst.addr] at g3
        refine tail ?_ g3
        intro y
        simp only [pre, get_set, Src.valM]
        grind
    | var v =>
      obtain ⟨v1, v2, v3, v4⟩ := hx v rfl
      have hvi : v ≠ i := fun h => h2 v rfl (by rw [h])
      have hiv := Ne.symm hvi
      have hvl : v < 2 ^ 32 := by have := v3.2.1; omega
      have hvs : ∀ y ∈ V.scr, v + 348 ≠ y := fun y hy => scrne v2 hy
      simp only [scr, List.mem_cons, List.not_mem_nil, or_false, forall_eq_or_imp, forall_eq] at hvs
      cases e with
      | const e =>
        have g1 := Layout.Steps.trig hw (cs := []) (as := V.setQ k n (.const e) (.var v) (.var i)) (nx := some v) hb trivial ⟨st _ _ _, st _ _ _, trivial⟩
          (q := ⟨[], KB.none, s⟩) (by simp) (fun _ => ⟨cellOk c7, ⟨v1, hil⟩, cellOk c8, ⟨i1, hV.lis k hk⟩, i1, i1, v1, v1, trivial⟩) (n := v) rfl
        rw [if_pos (holdsAll_nil _)] at g1
        have g2 := g1.trans (Layout.Steps.var hw v1 (n := i) (md := .set) (d := .mem (V.si + 348)) (w := epd (V.si + 348)) (by simp [setQ, runQA, QA.run, KB.up, hvi, hiv]) hil
          (by simp [setQ, runQA, QA.run, KB.up, hvi, hiv]) (dstOf_epd hV.esi.2) c9 (by simp [setQ, runQA, QA.run, KB.up, hvi, hiv]))
        have g2 := g2.trans (Layout.Steps.var hw i1 (n := V.is k) (md := .set) (d := .mem V.lv) (w := epd V.lv) (by simp [setQ, runQA, QA.run, KB.up, hvi, hiv]) (hV.lis k hk)
          (by simp [setQ, runQA, QA.run, KB.up, hvi, hiv]) (dstOf_epd hV.elv) c10 (by simp [setQ, runQA, QA.run, KB.up, hvi, hiv]))
        have g3 := Layout.Steps.runs hw g2 (by simp [setQ, runQA, QA.run])
        simp only [setQ, runQA, QA.run, aMem_run, arith, Dst.addr] at g3
        refine tail ?_ g3
        intro y
        simp only [pre, get_set, Src.valM]
        grind
      | var e =>
        obtain ⟨e1, e2, e3, e4⟩ := he e rfl
        have hei : e ≠ i := fun h => (h1 e rfl).2 (by rw [h])
        have hie := Ne.symm hei
        have hev : e ≠ v := fun h => (h1 e rfl).1 (by rw [h])
        have hve := Ne.symm hev
        have hes : ∀ y ∈ V.scr, e + 348 ≠ y := fun y hy => scrne e2 hy
        simp only [scr, List.mem_cons, List.not_mem_nil, or_false, forall_eq_or_imp, forall_eq] at hes
        have g1 := Layout.Steps.trig hw (cs := []) (as := V.setQ k n (.var e) (.var v) (.var i)) (nx := some e) hb trivial ⟨st _ _ _, st _ _ _, trivial⟩
          (q := ⟨[], KB.none, s⟩) (by simp) (fun _ => ⟨cellOk c7, ⟨e1, hvl⟩, ⟨v1, hil⟩, cellOk c8, e1, e1, ⟨i1, hV.lis k hk⟩, i1, i1, v1, v1, trivial⟩) (n := e) rfl
        rw [if_pos (holdsAll_nil _)] at g1
        have g2 := g1.trans (Layout.Steps.var hw e1 (n := v) (md := .add) (d := .mem (V.si + 344)) (w := epd (V.si + 344)) (by simp [setQ, runQA, QA.run, KB.up, hei, hie, hev, hve, hvi, hiv]) hvl
          (by simp [setQ, runQA, QA.run, KB.up, hei, hie, hev, hve, hvi, hiv]) (dstOf_epd hV.esi.1) c8 (by simp [setQ, runQA, QA.run, KB.up, hei, hie, hev, hve, hvi, hiv]))
        have g2 := g2.trans (Layout.Steps.var hw v1 (n := i) (md := .set) (d := .mem (V.si + 348)) (w := epd (V.si + 348)) (by simp [setQ, runQA, QA.run, KB.up, hei, hie, hev, hve, hvi, hiv]) hil
          (by simp [setQ, runQA, QA.run, KB.up, hei, hie, hev, hve, hvi, hiv]) (dstOf_epd hV.esi.2) c9 (by simp [setQ, runQA, QA.run, KB.up, hei, hie, hev, hve, hvi, hiv]))
        have g2 := g2.trans (Layout.Steps.var hw i1 (n := V.is k) (md := .set) (d := .mem V.lv) (w := epd V.lv) (by simp [setQ, runQA, QA.run, KB.up, hei, hie, hev, hve, hvi, hiv]) (hV.lis k hk)
          (by simp [setQ, runQA, QA.run, KB.up, hei, hie, hev, hve, hvi, hiv]) (dstOf_epd hV.elv) c10 (by simp [setQ, runQA, QA.run, KB.up, hei, hie, hev, hve, hvi, hiv]))
        have g3 := Layout.Steps.runs hw g2 (by simp [setQ, runQA, QA.run])
        simp only [setQ, runQA, QA.run, aMem_run, arith, Dst.addr] at g3
        refine tail ?_ g3
        intro y
        simp only [pre, get_set, Src.valM]
        grind

/-- vararray.py:251-271: index and value are the same variable `i`.  First `VProc` (eudv.py:666-685), for the EPD and the value; it goes on to `t2`. -/
def sameQ (V : VSh) (i t2 : Nat) : Src → List QA
  | .const e => [.cell (aMem (V.si + 344) .set (87 + e)), .dest i (epd (V.si + 348)), .modi i .set, .vnext i t2]
  | .var e => [.cell (aMem (V.si + 344) .set 87), .dest e (epd (V.si + 344)), .modi e .add, .dest i (epd (V.si + 348)), .modi i .set, .vnext e i, .vnext i t2]

/-- vararray.py:272-280: then the index. -/
def sameQ2 (V : VSh) (k n i : Nat) : List QA := [.vnext i (V.is k), .cell (aMem (V.si + 4) .set (BitVec.ofNat 32 n)), .dest i (epd V.lv), .modi i .set]

theorem same_code (hw : L.Wf) (hV : V.Ok L) {k n t t2 i : Nat} {e : Src} (hk : k ≤ 27) (hn : n < 2 ^ 32) (ht2 : t2 < 2 ^ 32) (he : VarOk L V e) (hi : VarOk L V (.var i)) (h1 : e ≠ .var i)
    (hb : (⟨t, ⟨[], (V.sameQ i t2 e).map QA.act⟩, some (setN e (.var i) (.var i)), false⟩ : SBlk) ∈ L.P.blks) (hb2 : (⟨t2, ⟨[], (V.sameQ2 k n i).map QA.act⟩, some i, false⟩ : SBlk) ∈ L.P.blks) {r b c : Nat} :
    Code L r b c (.prim (SetRel L V k n e (.var i) (.var i))) t n := by
  refine .prim ?_
  rintro s s' ⟨d, hd, hdc, hdn, hea, hki, rfl⟩
  have c := hV.cell
  have nd := hV.nd
  have hdn' := hdn
  simp only [scr, List.mem_cons, List.not_mem_nil, or_false, forall_eq_or_imp, forall_eq] at c
  simp only [scr, List.nodup_cons, List.mem_cons, List.not_mem_nil, or_false, not_or] at nd hdn'
  obtain ⟨c1, c2, c3, c4, c5, c6, c7, c8, c9, c10⟩ := c
  have cellOk : ∀ {x : Nat} {w : W} {q : QS}, L.cell x → QA.Ok L (.cell (aMem x .set w)) q := fun h => ⟨(by intro h; cases h), h⟩
  have scrne : ∀ {x y : Nat}, x ∉ V.scr → y ∈ V.scr → x ≠ y := fun h1 h2 e => h1 (e ▸ h2)
  have st := aMem_static
  obtain ⟨i1, i2, i3, i4⟩ := hi i rfl
  have hil : i < 2 ^ 32 := by have := i3.2.1; omega
  have hki' := hki i rfl
  have his : ∀ y ∈ V.scr, i + 348 ≠ y := fun y hy => scrne i2 hy
  simp only [scr, List.mem_cons, List.not_mem_nil, or_false, forall_eq_or_imp, forall_eq] at his
  have tail : ∀ {s1 : Mem} {t : Nat}, (∀ y, s1 y = ((((s.set V.lv (s (i + 348))).set (V.si + 4) (BitVec.ofNat 32 n)).set (V.si + 344) (87 + e.valM s)).set (V.si + 348) (s (i + 348))) y) →
      L.Runs s t s1 (V.is k) → L.Runs s t (V.setMem n d e (.var i) (.var i) s) n := by
    intro s1 t p0 hr
    have q1 : s1 V.lv = s (i + 348) := by rw [p0]; simp only [get_set]; grind
    have q2 : s1 (V.si + 4) = BitVec.ofNat 32 n := by rw [p0]; simp only [get_set]; grind
    have q3 : s1 (V.si + 344) = 87 + e.valM s := by rw [p0]; simp only [get_set]; grind
    have q4 : s1 (V.si + 348) = s (i + 348) := by rw [p0]; simp only [get_set]; grind
    have g := conv_set hw hV hk (s := s1) (d := d) (n := n) (by rw [q1]; exact hki') (by rw [q1, q3]; exact hea) hd hdc q2 hn hdn'.2.2.2.2.2.2.1
    have e2 : V.setMem n d e (.var i) (.var i) s = (s1.set (V.si + 344) (epd d)).set d (s (i + 348)) := by
      have : V.setMem n d e (.var i) (.var i) s = ((((s.set V.lv (s (i + 348))).set (V.si + 4) (BitVec.ofNat 32 n)).set (V.si + 344) (epd d)).set (V.si + 348) (s (i + 348))).set d (s (i + 348)) := by
        cases e <;> rfl
      rw [this]
      funext y
      simp only [get_set, p0]
      grind
    rw [q4] at g
    rw [e2]
    exact hr.trans g
  have first : L.Runs s t ((s.set (V.si + 344) (87 + e.valM s)).set (V.si + 348) (s (i + 348))) t2 := by
    cases e with
    | const e =>
      have g1 := Layout.Steps.trig hw (cs := []) (as := V.sameQ i t2 (.const e)) (nx := some i) hb trivial ⟨st _ _ _, trivial⟩
        (q := ⟨[], KB.none, s⟩) (by simp) (fun _ => ⟨cellOk c8, i1, i1, ⟨i1, ht2⟩, trivial⟩) (n := i) rfl
      rw [if_pos (holdsAll_nil _)] at g1
      have g2 := g1.trans (Layout.Steps.var hw i1 (n := t2) (md := .set) (d := .mem (V.si + 348)) (w := epd (V.si + 348)) (by simp [sameQ, runQA, QA.run, KB.up]) ht2
        (by simp [sameQ, runQA, QA.run, KB.up]) (dstOf_epd hV.esi.2) c9 (by simp [sameQ, runQA, QA.run, KB.up]))
      have g3 := Layout.Steps.runs hw g2 (by simp [sameQ, runQA, QA.run])
      simp only [sameQ, runQA, QA.run, aMem_run, arith, Dst.addr, set_ne his.2.2.2.2.2.2.2.1] at g3
      exact g3
    | var e =>
      obtain ⟨e1, e2, e3, e4⟩ := he e rfl
      have hei : e ≠ i := fun h => h1 (by rw [h])
      have hie := Ne.symm hei
      have hes : ∀ y ∈ V.scr, e + 348 ≠ y := fun y hy => scrne e2 hy
      simp only [scr, List.mem_cons, List.not_mem_nil, or_false, forall_eq_or_imp, forall_eq] at hes
      have g1 := Layout.Steps.trig hw (cs := []) (as := V.sameQ i t2 (.var e)) (nx := some e) hb trivial ⟨st _ _ _, trivial⟩
        (q := ⟨[], KB.none, s⟩) (by simp) (fun _ => ⟨cellOk c8, e1, e1, i1, i1, ⟨e1, hil⟩, ⟨i1, ht2⟩, trivial⟩) (n := e) rfl
      rw [if_pos (holdsAll_nil _)] at g1
      have g2 := g1.trans (Layout.Steps.var hw e1 (n := i) (md := .add) (d := .mem (V.si + 344)) (w := epd (V.si + 344)) (by simp [sameQ, runQA, QA.run, KB.up, hei, hie]) hil
        (by simp [sameQ, runQA, QA.run, KB.up, hei, hie]) (dstOf_epd hV.esi.1) c8 (by simp [sameQ, runQA, QA.run, KB.up, hei, hie]))
      have g2 := g2.trans (Layout.Steps.var hw i1 (n := t2) (md := .set) (d := .mem (V.si + 348)) (w := epd (V.si + 348)) (by simp [sameQ, runQA, QA.run, KB.up, hei, hie]) ht2
        (by simp [sameQ, runQA, QA.run, KB.up, hei, hie]) (dstOf_epd hV.esi.2) c9 (by simp [sameQ, runQA, QA.run, KB.up, hei, hie]))
      have g3 := Layout.Steps.runs hw g2 (by simp [sameQ, runQA, QA.run])
      simp only [sameQ, runQA, QA.run, aMem_run, arith, Dst.addr, set_eq, set_ne his.2.2.2.2.2.2.2.1, set_ne hes.2.2.2.2.2.2.2.1] at g3
      have : ((s.set (V.si + 344) 87).set (V.si + 344) (87 + s (e + 348))) = s.set (V.si + 344) (87 + s (e + 348)) := by
        funext x
        simp only [get_set]
        split <;> rfl
      rw [this] at g3
      exact g3
  have g1 := Layout.Steps.trig hw (cs := []) (as := V.sameQ2 k n i) (nx := some i) hb2 trivial ⟨st _ _ _, trivial⟩
    (q := ⟨[], KB.none, (s.set (V.si + 344) (87 + e.valM s)).set (V.si + 348) (s (i + 348))⟩) (by simp) (fun _ => ⟨⟨i1, hV.lis k hk⟩, cellOk c7, i1, i1, trivial⟩) (n := i) rfl
  rw [if_pos (holdsAll_nil _)] at g1
  have g2 := g1.trans (Layout.Steps.var hw i1 (n := V.is k) (md := .set) (d := .mem V.lv) (w := epd V.lv) (by simp [sameQ2, runQA, QA.run, KB.up]) (hV.lis k hk)
    (by simp [sameQ2, runQA, QA.run, KB.up]) (dstOf_epd hV.elv) c10 (by simp [sameQ2, runQA, QA.run, KB.up]))
  have g3 := Layout.Steps.runs hw g2 (by simp [sameQ2, runQA, QA.run])
  simp only [sameQ2, runQA, QA.run, aMem_run, arith, Dst.addr] at g3
  refine tail ?_ (first.trans g3)
  intro y
  simp only [get_set]
  grind

end VSh

/-! ## Histories -/

/-- The arrays of a program: `n` of them, `base k` and `len k` are address and number of elements (vararray.py:105-140); the shared triggers; and `U` has the dwords of the rest of the program. -/
structure VArrs where
  V : VSh
  n : Nat
  base : Nat → Nat
  len : Nat → Nat
  U : List Nat

/-- vararray.py:62-63, 72 bytes per element (varbuffer) -/
def VArrs.at (A : VArrs) (k i : Nat) : Nat := A.base k + 72 * i

/-- Element `i` of array `k` exists. -/
def VArrs.In (A : VArrs) (k i : Nat) : Prop := k < A.n ∧ i < A.len k

instance (A : VArrs) (k i : Nat) : Decidable (A.In k i) := inferInstanceAs (Decidable (_ ∧ _))

structure VArrs.Ok (L : Layout) (A : VArrs) : Prop where
  sh : A.V.Ok L
  len : ∀ k < A.n, A.len k < 2 ^ 28
  lt : ∀ k i, A.In k i → A.at k i < 2 ^ 32
  ep : ∀ k i, A.In k i → EpdOK (A.at k i + 348)
  el : ∀ k i, A.In k i → PVar L (A.at k i)
  inj : ∀ k i k' i', A.In k i → A.In k' i' → A.at k i + 348 ∈ VSh.dws (A.at k' i') → k = k' ∧ i = i'
  esc : ∀ k i, A.In k i → ∀ x ∈ VSh.dws (A.at k i), x ∉ A.V.scr ∧ x ∉ A.U
  usc : ∀ x ∈ A.U, x ∉ A.V.scr

/-- Operations: `d = array[idx]`, `array[idx] = x`, and assignments.  `k` is the array that `a` is the address or `e` the EPD of; afterwards control goes to `nx`. -/
inductive VOp
  | get (k : Nat) (a idx : Src) (nx d : Nat)
  | put (k : Nat) (e x idx : Src) (nx : Nat)
  | user (gs : List Asg)

/-- vararray.py:165-226, 228-327; the highest bit of the size is `bit_length() - 1`. -/
def VOp.stmt (L : Layout) (A : VArrs) : VOp → Stmt
  | .get k a idx nx d => .prim (VSh.GetRel L A.V (A.len k).log2 nx d a idx)
  | .put _ (.const e) (.const x) (.const i) _ => .trig [] [aMem (epdAddr (87 + e + 18 * i)) .set x]
  | .put k e x idx nx => .prim (VSh.SetRel L A.V (A.len k).log2 nx e x idx)
  | .user gs => .asg gs

def VOp.Ok (L : Layout) (A : VArrs) : VOp → Prop
  | .get _ a idx _ d => SrcIn A.U a ∧ SrcIn A.U idx ∧ d ∈ A.U
  | .put _ e x idx _ => SrcIn A.U e ∧ SrcIn A.U x ∧ SrcIn A.U idx
  | .user gs => AsgIn L A.U gs

/-- Arrays as functions: `f k i` is element `i` of array `k`.  `none` where the index is out of bounds, or the array is another one. -/
def VOp.spec (A : VArrs) : VOp → (Nat → Nat → W) × Mem → Option ((Nat → Nat → W) × Mem)
  | .get k a idx _ d, (f, e) =>
    if A.In k (idx.valM e).toNat ∧ a.valM e = BitVec.ofNat 32 (A.base k) then some (f, e.set d (f k (idx.valM e).toNat)) else none
  | .put k b x idx _, (f, e) =>
    if A.In k (idx.valM e).toNat ∧ b.valM e = epd (A.base k) then some (fun k' i' => if k' = k ∧ i' = (idx.valM e).toNat then x.valM e else f k' i', e) else none
  | .user gs, (f, e) => some (f, runAsg gs e)

def VOp.run (A : VArrs) : List VOp → (Nat → Nat → W) × Mem → Option ((Nat → Nat → W) × Mem)
  | [], a => some a
  | o :: os, a => (o.spec A a).bind (VOp.run A os)

/-- The memory holds the elements `f`, and the program's dwords are those of `e`. -/
structure VArrIs (A : VArrs) (s : Mem) (a : (Nat → Nat → W) × Mem) : Prop where
  val : ∀ k i, A.In k i → s (A.at k i + 348) = a.1 k i
  el : ∀ k i, A.In k i → A.V.Elem s (A.at k i)
  z : s (A.V.gi + 348) = 0
  u : ∀ x ∈ A.U, s x = a.2 x

theorem epd_elem (b : Nat) (w : W) : 87 + epd b + 18 * w = epd (b + 72 * w.toNat + 348) := by
  have e : 18 * w = BitVec.ofInt 32 (18 * (w.toNat : Int)) := by
    rw [show (18 * (w.toNat : Int)) = ((18 * w.toNat : Nat) : Int) by omega, ofInt_nat]
    apply BitVec.eq_of_toNat_eq
    simp [BitVec.toNat_mul]
  rw [e]
  unfold epd
  have e87 : (87 : W) = BitVec.ofInt 32 87 := by decide
  rw [e87, ← BitVec.ofInt_add, ← BitVec.ofInt_add]
  have : (87 + ((b : Int) - 0x58A364) / 4 + 18 * (w.toNat : Int)) = (((b + 72 * w.toNat + 348 : Nat) : Int) - 0x58A364) / 4 := by omega
  rw [this]

theorem vaddr (b : Nat) (w : W) : BitVec.ofNat 32 b + 72 * w = BitVec.ofNat 32 (b + 72 * w.toNat) := by
  apply BitVec.eq_of_toNat_eq
  simp [BitVec.toNat_mul, BitVec.toNat_add]

theorem vStep {L : Layout} {A : VArrs} (hA : A.Ok L) {op : VOp} (hop : op.Ok L A) {s : Mem} {a a' : (Nat → Nat → W) × Mem} (hI : VArrIs A s a) (hs : op.spec A a = some a') :
    Does L (op.stmt L A) s fun s' => VArrIs A s' a' := by
  obtain ⟨f, e⟩ := a
  have zz : A.V.gi + 348 ∈ A.V.scr := by simp [VSh.scr]
  have bnd : ∀ {k i : Nat}, A.In k i → i < 2 ^ ((A.len k).log2 + 1) := fun h => Nat.lt_trans h.2 Nat.lt_log2_self
  cases op with
  | user gs =>
    simp only [VOp.spec, Option.some.injEq] at hs
    subst hs
    refine Does.asg (fun g h => (hop.1 g h).1) hop.2 ?_
    obtain ⟨g1, g2⟩ := runAsg_in gs hI.u fun g h => (hop.1 g h).2
    refine ⟨fun k i h => (g2 _ (hA.esc k i h _ (by simp [VSh.dws])).2).trans (hI.val k i h), fun k i h => ?_, (g2 _ fun h => hA.usc _ h zz).trans hI.z, g1⟩
    exact ⟨(g2 _ (hA.esc k i h _ (by simp [VSh.dws])).2).trans (hI.el k i h).nxt, (g2 _ (hA.esc k i h _ (by simp [VSh.dws])).2).trans (hI.el k i h).dst,
      (g2 _ (hA.esc k i h _ (by simp [VSh.dws])).2).trans (hI.el k i h).md⟩
  | get k a idx nx d =>
    simp only [VOp.spec] at hs
    split at hs
    · rename_i hh
      obtain ⟨hin, ha⟩ := hh
      simp only [Option.some.injEq] at hs
      subst hs
      obtain ⟨o1, o2, o3⟩ := hop
      have ei := valM_in hI.u o2
      have ea := valM_in hI.u o1
      refine Does.prim (s' := A.V.getMem nx d (A.at k (idx.valM e).toNat) idx s) ⟨A.at k (idx.valM e).toNat, hA.lt _ _ hin, hA.el _ _ hin, hI.el _ _ hin, fun x hx => (hA.esc _ _ hin x hx).1, ?_, ?_, hI.z, rfl⟩ ?_
      · rw [ea, ei, ha, vaddr]; rfl
      · intro i _; rw [ei]; exact bnd hin
      have hv := hI.val _ _ hin
      simp only at hv
      have ho : ∀ x, x ∉ A.V.scr → A.V.getMem nx d (A.at k (idx.valM e).toNat) idx s x = if x = d then f k (idx.valM e).toNat else s x := by
        intro x hx
        simp only [VSh.scr, List.mem_cons, List.not_mem_nil, or_false, not_or] at hx
        cases idx <;> simp only [VSh.getMem, hv, get_set] <;> grind
      have hne : ∀ {k' i' x}, A.In k' i' → x ∈ VSh.dws (A.at k' i') → A.V.getMem nx d (A.at k (idx.valM e).toNat) idx s x = s x := by
        intro k' i' x h hx
        obtain ⟨h1, h2⟩ := hA.esc _ _ h x hx
        rw [ho x h1, if_neg (fun hh => h2 (by rw [hh]; exact o3))]
      refine ⟨fun k' i' h => (hne h (by simp [VSh.dws])).trans (hI.val k' i' h), fun k' i' h => ?_, ?_, fun x hx => ?_⟩
      · exact ⟨(hne h (by simp [VSh.dws])).trans (hI.el k' i' h).nxt, (hne h (by simp [VSh.dws])).trans (hI.el k' i' h).dst, (hne h (by simp [VSh.dws])).trans (hI.el k' i' h).md⟩
      · have hd : A.V.gi + 348 ≠ d := fun h => hA.usc _ o3 (h ▸ zz)
        have nd := hA.sh.nd
        simp only [VSh.scr, List.nodup_cons, List.mem_cons, List.not_mem_nil, or_false, not_or] at nd
        have hz := hI.z
        cases idx <;> simp only [VSh.getMem, get_set] <;> grind
      · rw [ho x (hA.usc x hx)]
        simp only [get_set]
        rw [hI.u x hx]
    · cases hs
  | put k b x idx nx =>
    simp only [VOp.spec] at hs
    split at hs
    · rename_i hh
      obtain ⟨hin, ha⟩ := hh
      simp only [Option.some.injEq] at hs
      subst hs
      obtain ⟨o1, o2, o3⟩ := hop
      have ei := valM_in hI.u o3
      have eb := valM_in hI.u o1
      have ex := valM_in hI.u o2
      have hep := hA.ep _ _ hin
      have hd : 87 + b.valM s + 18 * idx.valM s = epd (A.at k (idx.valM e).toNat + 348) := by rw [eb, ei, ha, epd_elem]; rfl
      have key : Does L (VOp.stmt L A (.put k b x idx nx)) s fun s' => s' = A.V.setMem nx (A.at k (idx.valM e).toNat + 348) b x idx s := by
        have prim : Does L (.prim (VSh.SetRel L A.V (A.len k).log2 nx b x idx)) s fun s' => s' = A.V.setMem nx (A.at k (idx.valM e).toNat + 348) b x idx s :=
          Does.prim ⟨_, hep, (hA.el _ _ hin).val, (hA.esc _ _ hin _ (by simp [VSh.dws])).1, hd, fun i _ => by rw [ei]; exact bnd hin, rfl⟩ rfl
        cases b with
        | var b => exact prim
        | const b =>
          cases x with
          | var x => exact prim
          | const x =>
            cases idx with
            | var i => exact prim
            | const i =>
              simp only [VOp.stmt, Src.valM] at hd hep ⊢
              rw [hd, epdAddr_epd hep.1 hep.2.1]
              exact Does.acts (actsOk_mem (hA.el _ _ hin).val trivial) (by rw [runPA_cons, runPA_nil, aMem_run]; rfl)
      refine key.mono ?_
      rintro s' rfl
      have ho : ∀ y, y ∉ A.V.scr → A.V.setMem nx (A.at k (idx.valM e).toNat + 348) b x idx s y = if y = A.at k (idx.valM e).toNat + 348 then x.valM e else s y := by
        intro y hy
        simp only [VSh.scr, List.mem_cons, List.not_mem_nil, or_false, not_or] at hy
        cases b <;> cases x <;> cases idx <;> simp only [VSh.setMem, ex, get_set] <;> grind
      have hne : ∀ {k' i' y}, A.In k' i' → y ∈ VSh.dws (A.at k' i') → y ≠ A.at k (idx.valM e).toNat + 348 → A.V.setMem nx (A.at k (idx.valM e).toNat + 348) b x idx s y = s y := by
        intro k' i' y h hy hn
        rw [ho y (hA.esc _ _ h y hy).1, if_neg hn]
      refine ⟨fun k' i' h => ?_, fun k' i' h => ?_, ?_, fun y hy => ?_⟩
      · rw [ho _ (hA.esc _ _ h _ (by simp [VSh.dws])).1]
        simp only
        by_cases hki : k' = k ∧ i' = (idx.valM e).toNat
        · rw [if_pos hki, if_pos (by rw [hki.1, hki.2])]
        · rw [if_neg hki, if_neg, hI.val _ _ h]
          intro hh
          exact hki (hA.inj _ _ _ _ h hin (by rw [hh]; simp [VSh.dws]))
      · have hq : ∀ y ∈ VSh.dws (A.at k' i'), y ≠ A.at k' i' + 348 → y ≠ A.at k (idx.valM e).toNat + 348 := by
          intro y hy hy2 hh
          subst hh
          have := hA.inj _ _ _ _ hin h hy
          exact hy2 (by rw [← this.1, ← this.2])
        exact ⟨(hne h (by simp [VSh.dws]) (hq _ (by simp [VSh.dws]) (by omega))).trans (hI.el _ _ h).nxt, (hne h (by simp [VSh.dws]) (hq _ (by simp [VSh.dws]) (by omega))).trans (hI.el _ _ h).dst,
          (hne h (by simp [VSh.dws]) (hq _ (by simp [VSh.dws]) (by omega))).trans (hI.el _ _ h).md⟩
      · have hd : A.V.gi + 348 ≠ A.at k (idx.valM e).toNat + 348 := fun h => (hA.esc _ _ hin _ (by simp [VSh.dws])).1 (h ▸ zz)
        have nd := hA.sh.nd
        simp only [VSh.scr, List.nodup_cons, List.mem_cons, List.not_mem_nil, or_false, not_or] at nd
        have hz := hI.z
        cases b <;> cases x <;> cases idx <;> simp only [VSh.setMem, get_set] <;> grind
      · rw [ho y (hA.usc y hy), if_neg, hI.u y hy]
        intro h
        exact (hA.esc _ _ hin _ (by simp [VSh.dws])).2 (h ▸ hy)
    · cases hs

/-- **C42 (EUDVArray).** Any history of reads and writes of elements of any number of arrays of variables, with constant and variable arrays, indices and values, gives the results of independent
elements: a read gets what was last put there, and a write changes this element only. -/
theorem C42_varray {L : Layout} {A : VArrs} (hA : A.Ok L) :
    ∀ (ops : List VOp) (s : Mem) (a a' : (Nat → Nat → W) × Mem), (∀ op ∈ ops, op.Ok L A) → VArrIs A s a → VOp.run A ops a = some a' →
      Does L (.seqs (ops.map (VOp.stmt L A))) s fun s' => VArrIs A s' a'
  | [], s, a, a', _, hI, h => by
    simp only [VOp.run, Option.some.injEq] at h
    subst h
    exact Does.skip hI
  | op :: ops, s, a, a', hop, hI, h => by
    simp only [VOp.run, Option.bind_eq_some_iff] at h
    obtain ⟨a1, h1, h2⟩ := h
    exact Does.seq ((vStep hA (hop op (by simp)) hI h1).mono fun s' h' => C42_varray hA ops s' a1 a' (fun op ho => hop op (by simp [ho])) h' h2)

end Eud.SC
