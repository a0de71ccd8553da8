import Verif.Lib.ByteWrite
/-
`EUDQueue` and `EUDDeque` (collections/eudqueue.py): bounded queues in an array of variables.

The two ends of the queue are kept in several places at once: as the destination of the action that appends, as next pointer of the
trigger that jumps into the array, and in the triggers for iteration.  A *cursor* is such a group of dwords that move together.
-/

namespace Eud.SC

/-! ## Cursors -/

/-- Dwords that stand for one position: address, contents at position 0, and distance of neighbouring positions. -/
abbrev Cursor := List (Nat × Int × Int)

def Cursor.at_ (c : Cursor) (s : Mem) (p : Int) : Prop := ∀ e ∈ c, s e.1 = BitVec.ofInt 32 (e.2.1 + e.2.2 * p)

/-- The actions that move the cursor. -/
def Cursor.move (c : Cursor) (k : Int) : List PA := c.map fun e => aMem e.1 .add (BitVec.ofInt 32 (e.2.2 * k))

def Cursor.cells (c : Cursor) : List Nat := c.map Prod.fst

theorem Cursor.move_ne : ∀ (c : Cursor) (k : Int) (s : Mem) (x : Nat), x ∉ c.cells → runPA (c.move k) s x = s x
  | [], _, _, _, _ => rfl
  | e :: c, k, s, x, h => by
    simp only [Cursor.cells, List.map_cons, List.mem_cons, not_or] at h
    show runPA (Cursor.move c k) ((aMem e.1 .add (BitVec.ofInt 32 (e.2.2 * k))).run s) x = _
    rw [Cursor.move_ne c k _ x h.2, aMem_run, set_ne h.1]

theorem Cursor.move_at : ∀ (c : Cursor) (k : Int) (s : Mem) (p : Int), c.cells.Nodup → c.at_ s p → c.at_ (runPA (c.move k) s) (p + k)
  | [], _, _, _, _, _ => fun e he => by simp at he
  | e :: c, k, s, p, hn, h => by
    simp only [Cursor.cells, List.map_cons, List.nodup_cons] at hn
    have key : (Cursor.at_ c) ((aMem e.1 .add (BitVec.ofInt 32 (e.2.2 * k))).run s) p := by
      intro e' he'
      rw [aMem_run, set_ne, h e' (by simp [he'])]
      exact fun eq => hn.1 (eq ▸ List.mem_map.2 ⟨e', he', rfl⟩)
    intro e' he'
    rcases List.mem_cons.1 he' with rfl | he'
    · show runPA (Cursor.move c k) _ _ = _
      rw [Cursor.move_ne c k _ _ hn.1, aMem_run, set_eq, h _ (by simp)]
      simp only [arith]
      rw [← BitVec.ofInt_add, Int.mul_add]
      congr 1
      omega
    · exact Cursor.move_at c k _ p hn.2 key e' he'

theorem Cursor.move_ok {L : Layout} : ∀ (c : Cursor) (k : Int) (s : Mem) (ps : List PA), (∀ x ∈ c.cells, L.cell x) → ActsOk L ps (runPA (c.move k) s) → ActsOk L (c.move k ++ ps) s
  | [], _, _, _, _, h => h
  | e :: c, k, s, ps, hc, h => by
    refine actsOk_mem (hc _ (by simp [Cursor.cells])) ?_
    exact Cursor.move_ok c k _ ps (fun x hx => hc x (by simp only [Cursor.cells, List.map_cons, List.mem_cons] at hx ⊢; exact Or.inr hx)) h

theorem Cursor.at_congr {c : Cursor} {s s' : Mem} {p : Int} (h : c.at_ s p) (hs : ∀ x ∈ c.cells, s' x = s x) : c.at_ s' p :=
  fun e he => by rw [hs _ (List.mem_map.2 ⟨e, he, rfl⟩), h e he]

theorem Cursor.move_placed : ∀ (c : Cursor) (k : Int) (x : Nat) (ps : List PA), PlacedA (x + 32 * c.length) ps → PlacedA x (c.move k ++ ps)
  | [], _, x, _, h => by simpa [Cursor.move] using h
  | e :: c, k, x, ps, h => by
    refine ⟨aMem_static _ _ _, Cursor.move_placed c k (x + 32) ps ?_⟩
    rw [List.length_cons] at h
    rwa [show x + 32 + 32 * c.length = x + 32 * (c.length + 1) by omega]

theorem ofInt_nat (n : Nat) : BitVec.ofInt 32 (n : Int) = BitVec.ofNat 32 n := by simp

/-- Comparing two positions that fit in a dword. -/
theorem ofInt_le {x y : Int} (hx : 0 ≤ x) (hx' : x < 2 ^ 32) (hy : 0 ≤ y) (hy' : y < 2 ^ 32) : (BitVec.ofInt 32 x ≤ BitVec.ofInt 32 y) = (x ≤ y) := by
  rw [BitVec.le_def, BitVec.toNat_ofInt, BitVec.toNat_ofInt]
  apply propext
  constructor <;> intro h <;> omega

/-! ## An action whose destination and value are filled in by other code -/

/-- `SetMemory(.., SetTo, ..)` at `p`: destination and value are the dwords at `p + 16` and `p + 20`. -/
def aPut (p : Nat) : PA := ⟨⟨none, .set, none, some 0xFFFFFFFF⟩, some p⟩

theorem aPut_res {s : Mem} {p d : Nat} (h : s (p + 16) = epd d) (he : EpdOK d) : (aPut p).a.res s p = ⟨.mem d, .set, s (p + 20), 0xFFFFFFFF⟩ := by
  simp only [aPut, SAct.res, h, dstOf_epd he, Option.getD_none, Option.getD_some]

theorem aPut_run {s : Mem} {p d : Nat} (h : s (p + 16) = epd d) (he : EpdOK d) : (aPut p).run s = s.set d (s (p + 20)) := by
  unfold PA.run
  rw [show (aPut p).pos.getD 0 = p from rfl, aPut_res h he]
  simp only [Act.apply, Dst.addr]
  congr 1
  exact modify_full _ _ _

theorem actsOk_put {L : Layout} {s : Mem} {p d : Nat} (h : s (p + 16) = epd d) (he : EpdOK d) (hc : L.cell d) {ps : List PA} (hr : ActsOk L ps (s.set d (s (p + 20)))) : ActsOk L (aPut p :: ps) s := by
  refine ⟨?_, ?_, ?_⟩
  · intro _
    rw [show (aPut p).pos.getD 0 = p from rfl, h, dstOf_epd he]
    rfl
  · rw [show (aPut p).pos.getD 0 = p from rfl, aPut_res h he]
    exact hc
  · rw [aPut_run h he]
    exact hr

/-! ## Triggers with a next pointer in plain sight -/

/-- Trigger `t` goes on to `n`, or first to a second trigger `u` that goes on to `n`. -/
def DetourRel (L : Layout) (t u n : Nat) (cs1 : List PC) (as1 : List PA) (cs2 : List PC) (as2 : List PA) (s s' : Mem) : Prop :=
  (∀ p ∈ cs1, p.Ok L s) ∧ (holdsAll s cs1 = true → ActsOk L as1 s) ∧ ∃ s1, s1 = (if holdsAll s cs1 then runPA as1 s else s) ∧
    ((s1 (t + 4) = BitVec.ofNat 32 n ∧ s' = s1) ∨
      (s1 (t + 4) = BitVec.ofNat 32 u ∧ (∀ p ∈ cs2, p.Ok L s1) ∧ (holdsAll s1 cs2 = true → ActsOk L as2 s1) ∧ s' = if holdsAll s1 cs2 then runPA as2 s1 else s1))

theorem detour_code {L : Layout} (hw : L.Wf) {t u n : Nat} {cs1 cs2 : List PC} {as1 as2 : List PA}
    (h1 : (⟨t, ⟨cs1.map PC.c, as1.map PA.a⟩, none, false⟩ : SBlk) ∈ L.P.blks) (h4 : ¬ L.priv (t + 4)) (c1 : PlacedC (t + 8) cs1) (a1 : PlacedA (t + 328) as1)
    (h2 : (⟨u, ⟨cs2.map PC.c, as2.map PA.a⟩, some n, false⟩ : SBlk) ∈ L.P.blks) (c2 : PlacedC (u + 8) cs2) (a2 : PlacedA (u + 328) as2) (hn : n < 2 ^ 32) (hu : u < 2 ^ 32)
    {r b k : Nat} : Code L r b k (.prim (DetourRel L t u n cs1 as1 cs2 as2)) t n := by
  refine .prim ?_
  rintro s s' ⟨o1, o2, s1, rfl, h⟩
  have g := Layout.Runs.dyn hw h1 h4 c1 a1 o1 o2
  rcases h with ⟨h, rfl⟩ | ⟨h, p1, p2, rfl⟩
  · rwa [h, BitVec.toNat_ofNat, Nat.mod_eq_of_lt hn] at g
  · rw [h, BitVec.toNat_ofNat, Nat.mod_eq_of_lt hu] at g
    refine g.trans ?_
    obtain ⟨e1, e2⟩ := c2.spec (L := L) (s := (if holdsAll s cs1 then runPA as1 s else s))
    obtain ⟨f1, f2⟩ := a2.spec (L := L) (s := (if holdsAll s cs1 then runPA as1 s else s))
    have := Layout.Runs.trig hw h2 rfl rfl (e2 p1) (fun hh => f2 (p2 (e1 ▸ hh)))
    simp only [SBlk.exec, e1, f1] at this
    exact this

/-! ## Queues in an array of variables -/

/-- Where the parts of an `EUDQueue` or `EUDDeque` are (eudqueue.py:24-200, 227-480): the array `q`, the variables `pop` and `ret`, the dword with
the length, and the triggers of append (`ta`, `cw`, `wt`, `wh`), popleft (`jl`, `wr`), pop (`p1`, `jp`, `rp`) and appendleft (`cw2`, `wh2`, `wt2`, `tl`);
`it` is the first trigger of the iteration.  `dq` tells whether it is an `EUDDeque`. -/
structure Ring where
  q : Nat
  cap : Nat
  pop : Nat
  ret : Nat
  len : Nat
  it : Nat
  ta : Nat
  cw : Nat
  wt : Nat
  wh : Nat
  jl : Nat
  wr : Nat
  dq : Bool
  p1 : Nat
  jp : Nat
  rp : Nat
  cw2 : Nat
  wh2 : Nat
  wt2 : Nat
  tl : Nat

namespace Ring

/-- `EPD(queue) + 87` -/
def e0 (r : Ring) : Int := (epd (r.q + 348)).toNat

/-- eudqueue.py:117, 310-311: where the next element goes. -/
def head (r : Ring) : Cursor := (r.ta + 344, r.e0, 18) :: if r.dq then [(r.jp + 4, (r.q : Int), 72)] else []

/-- eudqueue.py:125-127, 322-325: where the oldest element is. -/
def tail (r : Ring) : Cursor :=
  (if r.dq then [(r.tl + 504, r.e0, 18)] else []) ++ [(r.jl + 4, (r.q : Int) - 72, 72), (r.it + 348, r.e0, 18), (r.it + 380, (r.q : Int) - 72, 72)]

/-- eudqueue.py:113-120, 306-315 -/
def appActs (r : Ring) : List PA :=
  aPut (r.ta + 328) :: (r.head.move 1 ++ (aMem r.len .add 1 :: if r.dq then [aMem (r.cw + 4) .set (BitVec.ofNat 32 r.wh)] else []))

/-- eudqueue.py:121-131, 316-328 -/
def cwActs (r : Ring) : List PA := aMem (r.cw + 4) .set (BitVec.ofNat 32 r.wt) :: (r.tail.move 1 ++ [aMem r.len .sub 1])

/-- eudqueue.py:132-142, 329-339; the deque leaves the pointer of `check_wrap` alone. -/
def wtActs (r : Ring) : List PA := (if r.dq then [] else [aMem (r.cw + 4) .set (BitVec.ofNat 32 r.wh)]) ++ r.tail.move (-r.cap)

/-- `Memory(jumpleft + 4, AtLeast, queue + 72 * (capacity - 1))` -/
def tailEnd (r : Ring) : PC := cMem (r.jl + 4) .atLeast (BitVec.ofInt 32 (r.q + 72 * ((r.cap : Int) - 1)))

/-- `Memory(append_act + 16, AtLeast, EPD(queue) + 87 + 18 * capacity)` -/
def headEnd (r : Ring) : PC := cMem (r.ta + 344) .atLeast (BitVec.ofInt 32 (r.e0 + 18 * r.cap))

/-- eudqueue.py:102-146, 307-359 `append` -/
def append (L : Layout) (r : Ring) : Stmt :=
  .seq (.trig [] r.appActs) (.seq
    (.prim (DetourRel L r.cw r.wt r.wh [cMem r.len .atLeast (BitVec.ofNat 32 (r.cap + 1))] r.cwActs [r.tailEnd] r.wtActs))
    (.trig [r.headEnd] (r.head.move (-r.cap))))

/-- Trigger `t`, with actions `as`, jumps to the element its next pointer tells, which hands its value to `pop` and so to `ret`; then on to `n`. -/
def JumpRel (L : Layout) (r : Ring) (t n : Nat) (as : List PA) (s s' : Mem) : Prop :=
  ActsOk L as s ∧ ∃ s1 j, s1 = runPA as s ∧ j < r.cap ∧ s1 (t + 4) = BitVec.ofNat 32 (r.q + 72 * j) ∧ s1 (r.q + 72 * j + 4) = BitVec.ofNat 32 r.pop ∧
    s1 (r.q + 72 * j + 344) = epd (r.pop + 348) ∧ s1 (r.q + 72 * j + 352) = pmod .set ∧ s1 (r.pop + 344) = epd (r.ret + 348) ∧ s1 (r.pop + 352) = pmod .set ∧
    s1 (r.pop + 4) = BitVec.ofNat 32 n ∧ s' = (s1.set (r.pop + 348) (s1 (r.q + 72 * j + 348))).set (r.ret + 348) (s1 (r.q + 72 * j + 348))

def jlActs (r : Ring) : List PA := aMem (r.pop + 4) .set (BitVec.ofNat 32 r.wr) :: (r.tail.move 1 ++ [aMem r.len .sub 1])

/-- eudqueue.py:148-175, 436-465 `popleft`, without the return. -/
def popleft (L : Layout) (r : Ring) : Stmt := .seq (.prim (JumpRel L r r.jl r.wr r.jlActs)) (.trig [r.tailEnd] (r.tail.move (-r.cap)))

/-- `Memory(jump + 4, AtMost, deque)` -/
def headZero (r : Ring) : PC := cMem (r.jp + 4) .atMost (BitVec.ofNat 32 r.q)

def jpActs (r : Ring) : List PA := aMem (r.pop + 4) .set (BitVec.ofNat 32 r.rp) :: (r.head.move (-1) ++ [aMem r.len .sub 1])

/-- eudqueue.py:361-384 `_pop`, without the return. -/
def popright (L : Layout) (r : Ring) : Stmt := .seq (.trig [r.headZero] (r.head.move r.cap)) (.prim (JumpRel L r r.jp r.rp r.jpActs))

/-- eudqueue.py:388-397 -/
def cw2Acts (r : Ring) : List PA := aMem (r.cw2 + 4) .set (BitVec.ofNat 32 r.wh2) :: (r.head.move (-1) ++ [aMem r.len .sub 1])

/-- eudqueue.py:415-426 -/
def tlActs (r : Ring) : List PA := aMem (r.cw2 + 4) .set (BitVec.ofNat 32 r.wt2) :: (r.tail.move (-1) ++ [aPut (r.tl + 488), aMem r.len .add 1])

/-- `Memory(appendleft_act + 16, AtMost, EPD(deque) + 87)` -/
def tailZero (r : Ring) : PC := cMem (r.tl + 504) .atMost (BitVec.ofInt 32 r.e0)

/-- eudqueue.py:386-434 `appendleft` -/
def appendleft (L : Layout) (r : Ring) : Stmt :=
  .seq (.prim (DetourRel L r.cw2 r.wh2 r.wt2 [cMem r.len .atLeast (BitVec.ofNat 32 r.cap)] r.cw2Acts [r.headZero] (r.head.move r.cap)))
    (.seq (.trig [r.tailZero] (r.tail.move r.cap)) (.trig [] r.tlActs))

/-- eudqueue.py:182-191, 465-476 `clear`; the order of the actions does not matter. -/
def clear (r : Ring) : Stmt :=
  .trig [] (((r.head ++ r.tail).map fun e => aMem e.1 .set (BitVec.ofInt 32 e.2.1)) ++ [aMem r.len .set 0])

/-- The dwords that steer the queue. -/
def steer (r : Ring) : List Nat :=
  r.head.cells ++ (r.tail.cells ++ ([r.len, r.cw + 4, r.pop + 4, r.pop + 348, r.ret + 348, r.ta + 348] ++ if r.dq then [r.tl + 508, r.cw2 + 4] else []))

/-- The elements, with the dwords that make them go to `pop`. -/
def data (r : Ring) (x : Nat) : Prop :=
  (∃ j < r.cap, x = r.q + 72 * j + 4 ∨ x = r.q + 72 * j + 344 ∨ x = r.q + 72 * j + 348 ∨ x = r.q + 72 * j + 352) ∨ x = r.pop + 344 ∨ x = r.pop + 352

/-- The values of the elements. -/
def vals (r : Ring) : List Nat := (List.range r.cap).map fun j => r.q + 72 * j + 348

theorem mem_vals {r : Ring} {j : Nat} (h : j < r.cap) : r.q + 72 * j + 348 ∈ r.vals := List.mem_map.2 ⟨j, List.mem_range.2 h, rfl⟩

/-- What the operations may change. -/
def scr (r : Ring) : List Nat := r.steer ++ r.vals

/-- Static facts. -/
structure Ok (L : Layout) (r : Ring) : Prop where
  pos : 0 < r.cap
  al : r.q % 4 = 0
  ge : deathTable ≤ r.q
  lt : r.q + 72 * r.cap + 348 < 2 ^ 32
  cells : ∀ x ∈ r.steer, L.cell x
  elem : ∀ j < r.cap, PVar L (r.q + 72 * j)
  pv : PVar L r.pop
  vr : r.ret ∈ L.P.vars
  nd : r.steer.Nodup
  dis : ∀ x, r.data x → x ∉ r.steer
  pe : ∀ j < r.cap, r.pop + 344 ≠ r.q + 72 * j + 348 ∧ r.pop + 352 ≠ r.q + 72 * j + 348
  ep : EpdOK (r.pop + 348)
  er : EpdOK (r.ret + 348)
  plt : r.pop < 2 ^ 32

/-- Around the end of the array. -/
def ix (r : Ring) (x : Nat) : Nat := if x < r.cap then x else x - r.cap

/-- The elements `l` are stored from position `t` on; the array leads to `pop` and `ret`. -/
structure Core (r : Ring) (s : Mem) (t : Nat) (l : List W) : Prop where
  el : ∀ (i : Nat) (h : i < l.length), s (r.q + 72 * r.ix (t + i) + 348) = l[i]
  st : ∀ j < r.cap, s (r.q + 72 * j + 4) = BitVec.ofNat 32 r.pop ∧ s (r.q + 72 * j + 344) = epd (r.pop + 348) ∧ s (r.q + 72 * j + 352) = pmod .set
  pd : s (r.pop + 344) = epd (r.ret + 348) ∧ s (r.pop + 352) = pmod .set

/-- The memory represents the queue `l`, with the ends at `t` and `h`.  `h` can be the capacity instead of 0 (see `C39_counterexample`). -/
structure Rep (r : Ring) (s : Mem) (t h : Nat) (l : List W) : Prop where
  ht : t < r.cap
  hl : l.length ≤ r.cap
  hh : h = r.ix (t + l.length) ∨ (h = r.cap ∧ r.ix (t + l.length) = 0)
  len : s r.len = BitVec.ofNat 32 l.length
  tail : r.tail.at_ s t
  head : r.head.at_ s h
  cw : s (r.cw + 4) = BitVec.ofNat 32 r.wh ∨ s (r.cw + 4) = BitVec.ofNat 32 r.wt
  cw2 : r.dq = true → s (r.cw2 + 4) = BitVec.ofNat 32 r.wt2
  core : r.Core s t l

theorem Core.congr {r : Ring} {s s' : Mem} {t : Nat} {l : List W} (hp : t + l.length ≤ 2 * r.cap) (h : r.Core s t l) (hs : ∀ x, r.data x → s' x = s x) : r.Core s' t l := by
  refine ⟨fun i hi => ?_, fun j hj => ?_, ?_⟩
  · rw [hs, h.el i hi]
    refine Or.inl ⟨_, ?_, Or.inr (Or.inr (Or.inl rfl))⟩
    unfold ix
    split <;> omega
  · rw [hs _ (Or.inl ⟨j, hj, by simp⟩), hs _ (Or.inl ⟨j, hj, by simp⟩), hs _ (Or.inl ⟨j, hj, by simp⟩)]
    exact h.st j hj
  · rw [hs _ (Or.inr (by simp)), hs _ (Or.inr (by simp))]
    exact h.pd

theorem e0_val {L : Layout} {r : Ring} (h : r.Ok L) : r.e0 = ((r.q + 348 - deathTable) / 4 : Nat) := by
  have h1 := h.al
  have h2 := h.lt
  have h3 := h.ge
  simp only [deathTable] at h3 ⊢
  unfold e0
  rw [epd_toNat _ (by omega) (by omega), if_pos (by omega)]

theorem elem_epd {L : Layout} {r : Ring} (h : r.Ok L) {j : Nat} (_ : j < r.cap) : BitVec.ofInt 32 (r.e0 + 18 * (j : Int)) = epd (r.q + 72 * j + 348) := by
  have h1 := h.al
  have h2 := h.lt
  have h3 := h.ge
  rw [e0_val h]
  unfold epd
  have : (((r.q + 348 - deathTable) / 4 : Nat) : Int) + 18 * (j : Int) = ((r.q + 72 * j + 348 : Nat) - 0x58A364 : Int) / 4 := by
    simp only [deathTable] at h3 ⊢
    omega
  rw [this]

theorem elem_ok {L : Layout} {r : Ring} (h : r.Ok L) {j : Nat} (hj : j < r.cap) : EpdOK (r.q + 72 * j + 348) := by
  have h1 := h.al
  have h2 := h.lt
  have h3 := h.ge
  simp only [deathTable] at h3
  exact ⟨by omega, by omega, Or.inr (by simp only [deathTable]; omega)⟩

/-! ### Membership among the dwords that steer -/

theorem head_steer {r : Ring} {x : Nat} (h : x ∈ r.head.cells) : x ∈ r.steer := List.mem_append_left _ h
theorem tail_steer {r : Ring} {x : Nat} (h : x ∈ r.tail.cells) : x ∈ r.steer := List.mem_append_right _ (List.mem_append_left _ h)

/-- The single dwords. -/
def solo (r : Ring) : List Nat := [r.len, r.cw + 4, r.pop + 4, r.pop + 348, r.ret + 348, r.ta + 348] ++ if r.dq then [r.tl + 508, r.cw2 + 4] else []

theorem solo_steer {r : Ring} {x : Nat} (h : x ∈ r.solo) : x ∈ r.steer := List.mem_append_right _ (List.mem_append_right _ h)

structure Sep (r : Ring) : Prop where
  nh : r.head.cells.Nodup
  nt : r.tail.cells.Nodup
  ns : r.solo.Nodup
  ht : ∀ x ∈ r.head.cells, x ∉ r.tail.cells
  hs : ∀ x ∈ r.head.cells, x ∉ r.solo
  ts : ∀ x ∈ r.tail.cells, x ∉ r.solo

theorem Ok.sep {L : Layout} {r : Ring} (h : r.Ok L) : r.Sep := by
  have := h.nd
  unfold steer at this
  rw [List.nodup_append, List.nodup_append] at this
  obtain ⟨h1, ⟨h2, h3, h4⟩, h5⟩ := this
  exact ⟨h1, h2, h3, fun x hx hy => h5 x hx x (List.mem_append_left _ hy) rfl, fun x hx hy => h5 x hx x (List.mem_append_right _ hy) rfl, fun x hx hy => h4 x hx x hy rfl⟩

theorem data_ne {L : Layout} {r : Ring} (h : r.Ok L) {x y : Nat} (hx : r.data x) (hy : y ∈ r.steer) : x ≠ y := fun e => h.dis x hx (e ▸ hy)

/-- What the steering dwords say: the ends are at `t` and `h`, the length is `n`, `check_wrap` of appendleft leads to `c`. -/
structure St (r : Ring) (s : Mem) (t h : Int) (n c : Nat) : Prop where
  len : s r.len = BitVec.ofNat 32 n
  tail : r.tail.at_ s t
  head : r.head.at_ s h
  cw : s (r.cw + 4) = BitVec.ofNat 32 r.wh ∨ s (r.cw + 4) = BitVec.ofNat 32 r.wt
  cw2 : r.dq = true → s (r.cw2 + 4) = BitVec.ofNat 32 c

theorem mem_solo {r : Ring} : r.len ∈ r.solo ∧ r.cw + 4 ∈ r.solo ∧ r.pop + 4 ∈ r.solo ∧ r.pop + 348 ∈ r.solo ∧ r.ret + 348 ∈ r.solo ∧ r.ta + 348 ∈ r.solo := by
  simp [solo]

theorem mem_solo2 {r : Ring} (h : r.dq = true) : r.tl + 508 ∈ r.solo ∧ r.cw2 + 4 ∈ r.solo := by simp [solo, h]

/-- The single dwords are different. -/
structure Dif (r : Ring) : Prop where
  d1 : r.len ≠ r.cw + 4 ∧ r.len ≠ r.pop + 4 ∧ r.len ≠ r.pop + 348 ∧ r.len ≠ r.ret + 348 ∧ r.len ≠ r.ta + 348
  d2 : r.cw + 4 ≠ r.pop + 4 ∧ r.cw + 4 ≠ r.pop + 348 ∧ r.cw + 4 ≠ r.ret + 348 ∧ r.cw + 4 ≠ r.ta + 348
  d3 : r.pop + 4 ≠ r.ret + 348 ∧ r.pop + 4 ≠ r.ta + 348 ∧ r.pop + 348 ≠ r.ret + 348 ∧ r.pop + 348 ≠ r.ta + 348 ∧ r.ret + 348 ≠ r.ta + 348
  d4 : r.dq = true → r.cw2 + 4 ≠ r.len ∧ r.cw2 + 4 ≠ r.cw + 4 ∧ r.cw2 + 4 ≠ r.pop + 4 ∧ r.cw2 + 4 ≠ r.pop + 348 ∧ r.cw2 + 4 ≠ r.ret + 348 ∧ r.cw2 + 4 ≠ r.ta + 348 ∧ r.cw2 + 4 ≠ r.tl + 508
  d5 : r.dq = true → r.tl + 508 ≠ r.len ∧ r.tl + 508 ≠ r.cw + 4 ∧ r.tl + 508 ≠ r.pop + 4 ∧ r.tl + 508 ≠ r.pop + 348 ∧ r.tl + 508 ≠ r.ret + 348 ∧ r.tl + 508 ≠ r.ta + 348

theorem Sep.dif {r : Ring} (h : r.Sep) : r.Dif := by
  have := h.ns
  have key : (r.dq = true → List.Nodup [r.tl + 508, r.cw2 + 4]) ∧ (r.dq = true → ∀ x ∈ [r.len, r.cw + 4, r.pop + 4, r.pop + 348, r.ret + 348, r.ta + 348], x ≠ r.tl + 508 ∧ x ≠ r.cw2 + 4) ∧
      List.Nodup [r.len, r.cw + 4, r.pop + 4, r.pop + 348, r.ret + 348, r.ta + 348] := by
    unfold solo at this
    rw [List.nodup_append] at this
    refine ⟨fun hd => by simpa [hd] using this.2.1, fun hd x hx => ⟨?_, ?_⟩, this.1⟩
    · exact this.2.2 x hx _ (by simp [hd])
    · exact this.2.2 x hx _ (by simp [hd])
  obtain ⟨k1, k2, k3⟩ := key
  simp only [List.nodup_cons, List.mem_cons, List.not_mem_nil, or_false, not_or] at k3
  obtain ⟨e1, e2, e3, e4, e5, -⟩ := k3
  refine ⟨e1, e2, ⟨e3.2.1, e3.2.2, e4.1, e4.2, e5⟩, fun hd => ?_, fun hd => ?_⟩
  · have k2 := fun x hx => ((k2 hd x hx).2).symm
    have k1 := k1 hd
    refine ⟨k2 _ (by simp), k2 _ (by simp), k2 _ (by simp), k2 _ (by simp), k2 _ (by simp), k2 _ (by simp), ?_⟩
    simp at k1
    omega
  · have k2 := fun x hx => ((k2 hd x hx).1).symm
    exact ⟨k2 _ (by simp), k2 _ (by simp), k2 _ (by simp), k2 _ (by simp), k2 _ (by simp), k2 _ (by simp)⟩

theorem St.move_head {r : Ring} (hp : r.Sep) {s : Mem} {t h : Int} {n c : Nat} (H : r.St s t h n c) (k : Int) : r.St (runPA (r.head.move k) s) t (h + k) n c := by
  have key : ∀ x, (x ∈ r.tail.cells ∨ x ∈ r.solo) → runPA (r.head.move k) s x = s x := by
    intro x hx
    refine Cursor.move_ne _ _ _ _ fun hc => ?_
    rcases hx with hx | hx
    · exact hp.ht _ hc hx
    · exact hp.hs _ hc hx
  refine ⟨?_, Cursor.at_congr H.tail fun x hx => key x (Or.inl hx), Cursor.move_at _ _ _ _ hp.nh H.head, ?_, fun hd => ?_⟩
  · rw [key _ (Or.inr mem_solo.1)]; exact H.len
  · rw [key _ (Or.inr mem_solo.2.1)]; exact H.cw
  · rw [key _ (Or.inr (mem_solo2 hd).2)]; exact H.cw2 hd

theorem St.move_tail {r : Ring} (hp : r.Sep) {s : Mem} {t h : Int} {n c : Nat} (H : r.St s t h n c) (k : Int) : r.St (runPA (r.tail.move k) s) (t + k) h n c := by
  have key : ∀ x, (x ∈ r.head.cells ∨ x ∈ r.solo) → runPA (r.tail.move k) s x = s x := by
    intro x hx
    refine Cursor.move_ne _ _ _ _ fun hc => ?_
    rcases hx with hx | hx
    · exact hp.ht _ hx hc
    · exact hp.ts _ hc hx
  refine ⟨?_, Cursor.move_at _ _ _ _ hp.nt H.tail, Cursor.at_congr H.head fun x hx => key x (Or.inl hx), ?_, fun hd => ?_⟩
  · rw [key _ (Or.inr mem_solo.1)]; exact H.len
  · rw [key _ (Or.inr mem_solo.2.1)]; exact H.cw
  · rw [key _ (Or.inr (mem_solo2 hd).2)]; exact H.cw2 hd

/-- Changing a dword that says nothing about the ends. -/
theorem St.set {r : Ring} {s : Mem} {t h : Int} {n c : Nat} (H : r.St s t h n c) {a : Nat} (w : W) (h1 : a ∉ r.head.cells) (h2 : a ∉ r.tail.cells) (h3 : a ≠ r.len)
    (h4 : a = r.cw + 4 → w = BitVec.ofNat 32 r.wh ∨ w = BitVec.ofNat 32 r.wt) (h5 : r.dq = true → a ≠ r.cw2 + 4) : r.St (s.set a w) t h n c := by
  refine ⟨?_, Cursor.at_congr H.tail fun x hx => set_ne fun e => h2 (e ▸ hx), Cursor.at_congr H.head fun x hx => set_ne fun e => h1 (e ▸ hx), ?_, fun hd => ?_⟩
  · rw [set_ne (Ne.symm h3)]; exact H.len
  · by_cases e : a = r.cw + 4
    · subst e; rw [set_eq]; exact h4 rfl
    · rw [set_ne (Ne.symm e)]; exact H.cw
  · rw [set_ne (Ne.symm (h5 hd))]; exact H.cw2 hd

theorem St.setLen {r : Ring} (hp : r.Sep) {s : Mem} {t h : Int} {n c : Nat} (H : r.St s t h n c) {n' : Nat} {w : W} (hw : w = BitVec.ofNat 32 n') : r.St (s.set r.len w) t h n' c := by
  have hd := hp.dif
  refine ⟨by rw [set_eq, hw], Cursor.at_congr H.tail fun x hx => set_ne fun e => hp.ts x hx (e ▸ mem_solo.1), Cursor.at_congr H.head fun x hx => set_ne fun e => hp.hs x hx (e ▸ mem_solo.1), ?_, fun h => ?_⟩
  · rw [set_ne (Ne.symm hd.d1.1)]; exact H.cw
  · rw [set_ne (hd.d4 h).1]; exact H.cw2 h

theorem St.setCw2 {r : Ring} (hp : r.Sep) (hq : r.dq = true) {s : Mem} {t h : Int} {n c : Nat} (H : r.St s t h n c) (c' : Nat) : r.St (s.set (r.cw2 + 4) (BitVec.ofNat 32 c')) t h n c' := by
  have hd := hp.dif.d4 hq
  have hm := (mem_solo2 hq).2
  refine ⟨?_, Cursor.at_congr H.tail fun x hx => set_ne fun e => hp.ts x hx (e ▸ hm), Cursor.at_congr H.head fun x hx => set_ne fun e => hp.hs x hx (e ▸ hm), ?_, fun h => set_eq _ _ _⟩
  · rw [set_ne (Ne.symm hd.1)]; exact H.len
  · rw [set_ne (Ne.symm hd.2.1)]; exact H.cw

theorem len_add (n : Nat) : arith .add (BitVec.ofNat 32 n) 1 = BitVec.ofNat 32 (n + 1) := by
  simp only [arith]
  rw [BitVec.ofNat_add]
  rfl

theorem len_sub {n : Nat} (h : 0 < n) (h' : n < 2 ^ 32) : arith .sub (BitVec.ofNat 32 n) 1 = BitVec.ofNat 32 (n - 1) := by
  simp only [arith]
  have e1 : (BitVec.ofNat 32 n).toNat = n := by simp; omega
  rw [if_neg (by rw [BitVec.lt_def, e1]; simp; omega)]
  apply BitVec.eq_of_toNat_eq
  rw [BitVec.toNat_sub_of_le (by rw [BitVec.le_def, e1]; simp; omega), e1]
  simp
  omega

theorem Cursor.move_only (c : Cursor) (k : Int) {s : Mem} {l : List Nat} (h : ∀ x ∈ c.cells, x ∈ l) : Only l s (runPA (c.move k) s) :=
  fun x hx => Cursor.move_ne c k s x fun hc => hx (h x hc)

theorem Rep.st {r : Ring} {s : Mem} {t h : Nat} {l : List W} (R : r.Rep s t h l) : r.St s t h l.length r.wt2 := ⟨R.len, R.tail, R.head, R.cw, R.cw2⟩

theorem jl_tail (r : Ring) : (r.jl + 4, (r.q : Int) - 72, (72 : Int)) ∈ r.tail := by simp [Ring.tail]
theorem ta_head (r : Ring) : (r.ta + 344, r.e0, (18 : Int)) ∈ r.head := by simp [Ring.head]
theorem jp_head {r : Ring} (h : r.dq = true) : (r.jp + 4, (r.q : Int), (72 : Int)) ∈ r.head := by simp [Ring.head, h]
theorem tl_tail {r : Ring} (h : r.dq = true) : (r.tl + 504, r.e0, (18 : Int)) ∈ r.tail := by simp [Ring.tail, h]

theorem cell_of {c : Cursor} {e : Nat × Int × Int} (h : e ∈ c) : e.1 ∈ c.cells := List.mem_map.2 ⟨e, h, rfl⟩

theorem tailEnd_holds {L : Layout} {r : Ring} (hO : r.Ok L) {s : Mem} {t : Nat} {h : Int} {n c : Nat} (H : r.St s t h n c) (ht : t ≤ r.cap) : holdsAll s [r.tailEnd] = decide (r.cap ≤ t) := by
  have h1 := hO.lt
  have h2 := hO.ge
  have h3 := hO.pos
  simp only [deathTable] at h2
  rw [holdsAll_cons, holdsAll_nil, Bool.and_true, tailEnd, cMem_holds, H.tail _ (jl_tail r)]
  simp only [compare]
  rw [decide_eq_decide, ofInt_le (by omega) (by omega) (by omega) (by omega)]
  omega

theorem headEnd_holds {L : Layout} {r : Ring} (hO : r.Ok L) {s : Mem} {t : Int} {h n c : Nat} (H : r.St s t h n c) (hh : h ≤ r.cap + 1) : holdsAll s [r.headEnd] = decide (r.cap ≤ h) := by
  have h1 := hO.lt
  have h2 := hO.ge
  simp only [deathTable] at h2
  rw [holdsAll_cons, holdsAll_nil, Bool.and_true, headEnd, cMem_holds, H.head _ (ta_head r)]
  have he := e0_val hO
  simp only [deathTable] at he
  simp only [compare]
  rw [decide_eq_decide, ofInt_le (by omega) (by omega) (by omega) (by omega)]
  omega

theorem headZero_holds {L : Layout} {r : Ring} (hO : r.Ok L) (hd : r.dq = true) {s : Mem} {t h : Int} {n c : Nat} (H : r.St s t h n c) (h0 : -1 ≤ h) (hh : h ≤ r.cap) :
    holdsAll s [r.headZero] = decide (h ≤ 0) := by
  have h1 := hO.lt
  have h2 := hO.ge
  simp only [deathTable] at h2
  rw [holdsAll_cons, holdsAll_nil, Bool.and_true, headZero, cMem_holds, H.head _ (jp_head hd)]
  simp only [compare]
  rw [← ofInt_nat, decide_eq_decide, ofInt_le (by omega) (by omega) (by omega) (by omega)]
  omega

theorem tailZero_holds {L : Layout} {r : Ring} (hO : r.Ok L) (hd : r.dq = true) {s : Mem} {t : Nat} {h : Int} {n c : Nat} (H : r.St s t h n c) (ht : t ≤ r.cap) :
    holdsAll s [r.tailZero] = decide (t = 0) := by
  have h1 := hO.lt
  have h2 := hO.ge
  simp only [deathTable] at h2
  rw [holdsAll_cons, holdsAll_nil, Bool.and_true, tailZero, cMem_holds, H.tail _ (tl_tail hd)]
  have he := e0_val hO
  simp only [deathTable] at he
  simp only [compare]
  rw [decide_eq_decide, ofInt_le (by omega) (by omega) (by omega) (by omega)]
  omega

/-- A trigger that wraps the tail around. -/
theorem wrapTail {L : Layout} {r : Ring} (hO : r.Ok L) {s : Mem} {t : Nat} {h : Int} {n c : Nat} (H : r.St s t h n c) (ht : t ≤ r.cap) {as : List PA} (hA : ∀ s, r.St s t h n c →
      ActsOk L as s ∧ r.St (runPA as s) ((t : Int) + -(r.cap : Int)) h n c ∧ Only r.steer s (runPA as s)) :
    (∀ p ∈ [r.tailEnd], p.Ok L s) ∧ (holdsAll s [r.tailEnd] = true → ActsOk L as s) ∧
      r.St (if holdsAll s [r.tailEnd] then runPA as s else s) (r.ix t) h n c ∧ Only r.steer s (if holdsAll s [r.tailEnd] then runPA as s else s) := by
  obtain ⟨a1, a2, a3⟩ := hA s H
  refine ⟨?_, fun _ => a1, ?_⟩
  · intro p hp
    rw [List.mem_singleton.1 hp]
    exact cMem_ok (hO.cells _ (tail_steer (cell_of (jl_tail r)))) _ _ _
  · rw [tailEnd_holds hO H ht]
    unfold ix
    by_cases e : r.cap ≤ t
    · rw [if_pos (by simpa using e), if_neg (by omega)]
      refine ⟨?_, a3⟩
      have : ((t - r.cap : Nat) : Int) = (t : Int) + -(r.cap : Int) := by omega
      rw [this]
      exact a2
    · rw [if_neg (by simpa using e), if_pos (by omega)]
      exact ⟨H, Only.refl _ _⟩

theorem tailMove_ok {L : Layout} {r : Ring} (hO : r.Ok L) {s : Mem} {t h : Int} {n c : Nat} (H : r.St s t h n c) (k : Int) :
    ActsOk L (r.tail.move k) s ∧ r.St (runPA (r.tail.move k) s) (t + k) h n c ∧ Only r.steer s (runPA (r.tail.move k) s) := by
  refine ⟨?_, H.move_tail hO.sep k, Cursor.move_only _ _ fun x hx => tail_steer hx⟩
  have := Cursor.move_ok (L := L) r.tail k s [] (fun x hx => hO.cells x (tail_steer hx)) trivial
  rwa [List.append_nil] at this

theorem headMove_ok {L : Layout} {r : Ring} (hO : r.Ok L) {s : Mem} {t h : Int} {n c : Nat} (H : r.St s t h n c) (k : Int) :
    ActsOk L (r.head.move k) s ∧ r.St (runPA (r.head.move k) s) t (h + k) n c ∧ Only r.steer s (runPA (r.head.move k) s) := by
  refine ⟨?_, H.move_head hO.sep k, Cursor.move_only _ _ fun x hx => head_steer hx⟩
  have := Cursor.move_ok (L := L) r.head k s [] (fun x hx => hO.cells x (head_steer hx)) trivial
  rwa [List.append_nil] at this

/-- Writing the pointer of the first `check_wrap`. -/
theorem setCw {r : Ring} (hp : r.Sep) {s : Mem} {t h : Int} {n c : Nat} (H : r.St s t h n c) {w : W} (hw : w = BitVec.ofNat 32 r.wh ∨ w = BitVec.ofNat 32 r.wt) :
    r.St (s.set (r.cw + 4) w) t h n c := by
  have hd := hp.dif
  have m2 := (mem_solo (r := r)).2.1
  exact H.set _ (fun e => hp.hs _ e m2) (fun e => hp.ts _ e m2) (Ne.symm hd.d1.1) (fun _ => hw) (fun hq => Ne.symm (hd.d4 hq).2.1)

theorem arith_set (a b : W) : arith .set a b = b := rfl

theorem wt_ok {L : Layout} {r : Ring} (hO : r.Ok L) {s : Mem} {t h : Int} {n c : Nat} (H : r.St s t h n c) :
    ActsOk L r.wtActs s ∧ r.St (runPA r.wtActs s) (t + -(r.cap : Int)) h n c ∧ Only r.steer s (runPA r.wtActs s) := by
  have m2 := solo_steer (mem_solo (r := r)).2.1
  unfold wtActs
  split
  · exact tailMove_ok hO H _
  · have H' := setCw hO.sep H (Or.inl rfl)
    obtain ⟨a, b, c⟩ := tailMove_ok hO H' (-(r.cap : Int))
    refine ⟨actsOk_mem (hO.cells _ m2) (by rw [aMem_run]; exact a), ?_, ?_⟩
    · rw [List.cons_append, List.nil_append, runPA_cons, aMem_run]; exact b
    · rw [List.cons_append, List.nil_append, runPA_cons, aMem_run]; exact ((Only.refl _ _).set m2 _).trans c

theorem cw_ok {L : Layout} {r : Ring} (hO : r.Ok L) {s : Mem} {t h : Int} {n c : Nat} (H : r.St s t h (n + 1) c) (hn : n + 1 < 2 ^ 32) :
    ActsOk L r.cwActs s ∧ r.St (runPA r.cwActs s) (t + 1) h n c ∧ runPA r.cwActs s (r.cw + 4) = BitVec.ofNat 32 r.wt ∧ Only r.steer s (runPA r.cwActs s) := by
  have hp := hO.sep
  have hd := hp.dif
  obtain ⟨m1, m2, -⟩ := mem_solo (r := r)
  have H1 := setCw hp H (w := BitVec.ofNat 32 r.wt) (Or.inr rfl)
  have H2 := H1.move_tail hp 1
  have e : runPA r.cwActs s = (runPA (r.tail.move 1) (s.set (r.cw + 4) (BitVec.ofNat 32 r.wt))).set r.len (arith .sub (BitVec.ofNat 32 (n + 1)) 1) := by
    unfold cwActs
    rw [runPA_cons, aMem_run, runPA_append, runPA_cons, runPA_nil, aMem_run, arith_set, H2.len]
  refine ⟨?_, ?_, ?_, ?_⟩
  · exact actsOk_mem (hO.cells _ (solo_steer m2)) (Cursor.move_ok _ _ _ _ (fun x hx => hO.cells _ (tail_steer hx)) (actsOk_mem (hO.cells _ (solo_steer m1)) trivial))
  · rw [e]
    exact H2.setLen hp (len_sub (by omega) hn)
  · rw [e, set_ne (Ne.symm hd.d1.1), Cursor.move_ne _ _ _ _ fun hc => hp.ts _ hc m2, set_eq]
  · rw [e]
    exact (((Only.refl _ _).set (solo_steer m2) _).trans (Cursor.move_only _ _ fun x hx => tail_steer hx)).set (solo_steer m1) _

/-- Appending to a list of at most `cap` elements drops the oldest. -/
def push (cap : Nat) (l : List W) (v : W) : List W := (l ++ [v]).drop (l.length + 1 - cap)

theorem push_lt {cap : Nat} {l : List W} (v : W) (h : l.length < cap) : push cap l v = l ++ [v] := by
  unfold push
  rw [show l.length + 1 - cap = 0 by omega, List.drop_zero]

theorem push_full {cap : Nat} {l : List W} (v : W) (h : l.length = cap) : push cap l v = (l ++ [v]).tail := by
  unfold push
  rw [show l.length + 1 - cap = 1 by omega, List.drop_one]

theorem ix_lt {r : Ring} {x : Nat} (h : x < 2 * r.cap) : r.ix x < r.cap := by
  unfold ix; split <;> omega

theorem Core.set {L : Layout} {r : Ring} (hO : r.Ok L) {s : Mem} {t : Nat} {l : List W} (h : r.Core s t l) (d : Nat) (hd : d < r.cap) (v : W) {t' : Nat} {l' : List W}
    (hel : ∀ (i : Nat) (hi : i < l'.length), (r.ix (t' + i) = d ∧ l'[i] = v) ∨ (r.ix (t' + i) ≠ d ∧ ∃ (j : Nat) (hj : j < l.length), r.ix (t' + i) = r.ix (t + j) ∧ l'[i] = l[j])) :
    r.Core (s.set (r.q + 72 * d + 348) v) t' l' := by
  refine ⟨fun i hi => ?_, fun j hj => ?_, ?_⟩
  · rcases hel i hi with ⟨e1, e2⟩ | ⟨e1, j, hj, e2, e3⟩
    · rw [e1, set_eq, e2]
    · rw [set_ne (by omega), e2, e3]
      exact h.el j hj
  · rw [set_ne (by omega), set_ne (by omega), set_ne (by omega)]
    exact h.st j hj
  · obtain ⟨p1, p2⟩ := hO.pe d hd
    rw [set_ne p1, set_ne p2]
    exact h.pd

theorem Core.push_lt {L : Layout} {r : Ring} (hO : r.Ok L) {s : Mem} {t : Nat} {l : List W} (h : r.Core s t l) (ht : t < r.cap) (hl : l.length < r.cap) (v : W) :
    r.Core (s.set (r.q + 72 * r.ix (t + l.length) + 348) v) t (l ++ [v]) := by
  refine h.set hO _ (ix_lt (by omega)) v fun i hi => ?_
  rw [List.length_append, List.length_singleton] at hi
  by_cases e : i = l.length
  · subst e
    exact Or.inl ⟨rfl, by simp⟩
  · refine Or.inr ⟨?_, i, by omega, rfl, List.getElem_append_left (by omega)⟩
    unfold ix
    split <;> split <;> omega

theorem Core.push_full {L : Layout} {r : Ring} (hO : r.Ok L) {s : Mem} {t : Nat} {l : List W} (h : r.Core s t l) (ht : t < r.cap) (hl : l.length = r.cap) (v : W) :
    r.Core (s.set (r.q + 72 * r.ix (t + l.length) + 348) v) (r.ix (t + 1)) (l ++ [v]).tail := by
  refine h.set hO _ (ix_lt (by omega)) v fun i hi => ?_
  rw [List.length_tail, List.length_append, List.length_singleton] at hi
  by_cases e : i + 1 = l.length
  · refine Or.inl ⟨?_, ?_⟩
    · unfold ix; repeat' split
      all_goals omega
    · rw [List.getElem_tail]
      simp [e]
  · refine Or.inr ⟨?_, i + 1, by omega, ?_, ?_⟩
    · unfold ix; repeat' split
      all_goals omega
    · unfold ix; repeat' split
      all_goals omega
    · rw [List.getElem_tail, List.getElem_append_left (by omega)]

/-- The steering dwords and the elements together. -/
theorem Rep.of {L : Layout} {r : Ring} (hO : r.Ok L) {s s' : Mem} {t h : Nat} {l : List W} (H : r.St s' t h l.length r.wt2) (ht : t < r.cap) (hl : l.length ≤ r.cap)
    (hh : h = r.ix (t + l.length) ∨ (h = r.cap ∧ r.ix (t + l.length) = 0)) (hc : r.Core s t l) (hs : Only r.steer s s') : r.Rep s' t h l :=
  ⟨ht, hl, hh, H.len, H.tail, H.head, H.cw, H.cw2, hc.congr (by omega) fun x hx => hs x (hO.dis x hx)⟩

/-- The first trigger of append stores the value at `d`, whatever `d` is. -/
theorem append_first {L : Layout} {r : Ring} (hO : r.Ok L) {s : Mem} {t h : Int} {n c d : Nat} (H : r.St s t h n c) (e344 : s (r.ta + 328 + 16) = epd d) (he : EpdOK d) (hcD : L.cell d)
    (hDs : d ∉ r.steer) : ActsOk L r.appActs s ∧ r.St (runPA r.appActs s) t (h + 1) (n + 1) c ∧ Only r.steer (s.set d (s (r.ta + 348))) (runPA r.appActs s) := by
  have hp := hO.sep
  have hd := hp.dif
  have hc : ∀ {x : Nat}, x ∈ r.steer → L.cell x := fun h => hO.cells _ h
  obtain ⟨m1, m2, m3, m4, m5, m6⟩ := mem_solo (r := r)
  have run1 : runPA r.appActs s = runPA (aMem r.len .add 1 :: if r.dq then [aMem (r.cw + 4) .set (BitVec.ofNat 32 r.wh)] else [])
      (runPA (r.head.move 1) (s.set d (s (r.ta + 348)))) := by
    unfold appActs
    rw [runPA_cons, aPut_run e344 he, runPA_append]
  have ok1 : ActsOk L r.appActs s := by
    refine actsOk_put e344 he hcD (Cursor.move_ok _ _ _ _ (fun x hx => hc (head_steer hx)) (actsOk_mem (hc (solo_steer m1)) ?_))
    split
    · exact actsOk_mem (hc (solo_steer m2)) trivial
    · trivial
  have H0 : r.St (s.set d (s (r.ta + 348))) t h n c := H.set _ (fun e => hDs (head_steer e)) (fun e => hDs (tail_steer e)) (fun e => hDs (e ▸ solo_steer m1))
    (fun e => absurd (e ▸ solo_steer m2) hDs) (fun hq e => hDs (e ▸ solo_steer (mem_solo2 hq).2))
  have H1a := (H0.move_head hp 1).setLen hp (len_add n)
  have H1 : r.St (runPA r.appActs s) t (h + 1) (n + 1) c := by
    rw [run1, runPA_cons, aMem_run, (H0.move_head hp 1).len]
    split
    · rw [runPA_cons, runPA_nil, aMem_run]
      refine H1a.set _ (fun e => hp.hs _ e m2) (fun e => hp.ts _ e m2) (Ne.symm hd.d1.1) (fun _ => Or.inl rfl) (fun hq => Ne.symm (hd.d4 hq).2.1)
    · exact H1a
  have K1 : Only r.steer (s.set d (s (r.ta + 348))) (runPA r.appActs s) := by
    rw [run1, runPA_cons, aMem_run]
    have k := (Cursor.move_only r.head 1 (s := s.set d (s (r.ta + 348))) fun x hx => head_steer hx).set (solo_steer m1)
    split
    · rw [runPA_cons, runPA_nil, aMem_run]
      exact (k _).set (solo_steer m2) _
    · exact k _
  exact ⟨ok1, H1, K1⟩

theorem append_does {L : Layout} {r : Ring} (hO : r.Ok L) {s : Mem} {t h : Nat} {l : List W} (R : r.Rep s t h l) (hh : h < r.cap) :
    Does L (append L r) s fun s' => (∃ t', r.Rep s' t' (r.ix (h + 1)) (push r.cap l (s (r.ta + 348)))) ∧ Only r.scr s s' := by
  have hp := hO.sep
  have hd := hp.dif
  have ht := R.ht
  have hn := R.hl
  have hpos := hO.pos
  have hq := hO.lt
  have hh' : h = r.ix (t + l.length) := by
    rcases R.hh with e | ⟨e, -⟩
    · exact e
    · omega
  have H := R.st
  have hD : r.data (r.q + 72 * h + 348) := Or.inl ⟨h, hh, by simp⟩
  have hDs := hO.dis _ hD
  have hcD : L.cell (r.q + 72 * h + 348) := (hO.elem h hh).val
  have e344 : s (r.ta + 328 + 16) = epd (r.q + 72 * h + 348) := (H.head _ (ta_head r)).trans (elem_epd hO hh)
  have hc : ∀ {x : Nat}, x ∈ r.steer → L.cell x := fun h => hO.cells _ h
  obtain ⟨m1, m2, m3, m4, m5, m6⟩ := mem_solo (r := r)
  obtain ⟨ok1, H1, K1⟩ := append_first hO H e344 (elem_ok hO hh) hcD hDs
  unfold append
  refine Does.seq (Does.acts ok1 (Does.seq ?_))
  generalize runPA r.appActs s = s1 at H1 K1 ⊢
  -- both ways on, the tail is right and the head is one further
  have mid : ∃ s3 t' l', DetourRel L r.cw r.wt r.wh [cMem r.len .atLeast (BitVec.ofNat 32 (r.cap + 1))] r.cwActs [r.tailEnd] r.wtActs s1 s3 ∧ l' = push r.cap l (s (r.ta + 348)) ∧
      r.St s3 (t' : Nat) ((h + 1 : Nat) : Int) l'.length r.wt2 ∧ t' < r.cap ∧ l'.length ≤ r.cap ∧ r.ix (t' + l'.length) = r.ix (h + 1) ∧
      r.Core (s.set (r.q + 72 * h + 348) (s (r.ta + 348))) t' l' ∧ Only r.steer s1 s3 := by
    have okc : ∀ p ∈ [cMem r.len .atLeast (BitVec.ofNat 32 (r.cap + 1))], p.Ok L s1 := by
      intro p hp'
      rw [List.mem_singleton.1 hp']
      exact cMem_ok (hc (solo_steer m1)) _ _ _
    have hold : holdsAll s1 [cMem r.len .atLeast (BitVec.ofNat 32 (r.cap + 1))] = decide (r.cap ≤ l.length) := by
      rw [holdsAll_cons, holdsAll_nil, Bool.and_true, cMem_holds, H1.len]
      simp only [compare]
      rw [decide_eq_decide, ← ofInt_nat, ← ofInt_nat, ofInt_le (by omega) (by omega) (by omega) (by omega)]
      omega
    by_cases hf : l.length = r.cap
    · -- full
      obtain ⟨c1, c2, c3, c4⟩ := cw_ok hO H1 (by omega)
      have c2' : r.St (runPA r.cwActs s1) ((t + 1 : Nat) : Int) ((h + 1 : Nat) : Int) l.length r.wt2 := c2
      obtain ⟨w1, w2, w3, w4⟩ := wrapTail hO c2' (by omega) (as := r.wtActs) fun s' h' => wt_ok hO h'
      refine ⟨_, r.ix (t + 1), _, ⟨okc, fun _ => c1, runPA r.cwActs s1, ?_, Or.inr ⟨c3, w1, w2, rfl⟩⟩, rfl, ?_⟩
      · rw [hold, if_pos (by simp [hf])]
      · have hl' : (push r.cap l (s (r.ta + 348))).length = l.length := by rw [push_full _ hf]; simp
        rw [hl']
        refine ⟨w3, ix_lt (by omega), hn, ?_, ?_, c4.trans w4⟩
        · rw [hh', hf]
          unfold ix; repeat' split
          all_goals omega
        · rw [push_full _ hf, hh']
          exact R.core.push_full hO ht hf _
    · have hl' : (push r.cap l (s (r.ta + 348))).length = l.length + 1 := by rw [push_lt _ (by omega)]; simp
      have hfin : r.St s1 (t : Nat) ((h + 1 : Nat) : Int) (l.length + 1) r.wt2 := H1
      have rest : t < r.cap ∧ l.length + 1 ≤ r.cap ∧ r.ix (t + (l.length + 1)) = r.ix (h + 1) ∧
          r.Core (s.set (r.q + 72 * h + 348) (s (r.ta + 348))) t (push r.cap l (s (r.ta + 348))) := by
        refine ⟨ht, by omega, ?_, ?_⟩
        · rw [hh']
          unfold ix; repeat' split
          all_goals omega
        · rw [push_lt _ (by omega), hh']
          exact R.core.push_lt hO ht (by omega) _
      refine ⟨s1, t, _, ⟨okc, ?_, s1, ?_, ?_⟩, rfl, ?_⟩
      · rw [hold]; intro h; simp at h; omega
      · rw [hold, if_neg (by simp; omega)]
      · rcases H1.cw with e | e
        · exact Or.inl ⟨e, rfl⟩
        · obtain ⟨w1, w2, w3, w4⟩ := wrapTail hO hfin (by omega) (as := r.wtActs) fun s' h' => wt_ok hO h'
          refine Or.inr ⟨e, w1, w2, ?_⟩
          rw [tailEnd_holds hO hfin (by omega), if_neg (by simp; omega)]
      · rw [hl']
        exact ⟨hfin, rest.1, rest.2.1, rest.2.2.1, rest.2.2.2, Only.refl _ _⟩
  obtain ⟨s3, t', l', g1, rfl, g2, g3, g4, g5, g6, g7⟩ := mid
  refine Does.prim g1 ?_
  obtain ⟨a1, a2, a3⟩ := headMove_ok hO g2 (-(r.cap : Int))
  have o1 : Only r.scr s s1 := by
    intro x hx
    simp only [scr, List.mem_append, not_or] at hx
    rw [K1 x hx.1, set_ne fun e => hx.2 (by rw [e]; exact mem_vals hh)]
  have o2 : Only r.scr s s3 := o1.trans (g7.mono fun x hx => List.mem_append_left _ hx)
  have he := headEnd_holds hO g2 (by omega)
  refine Does.trig ?_ (fun hb => ⟨a1, ?_⟩) fun hb => ?_
  · intro p hp'
    rw [List.mem_singleton.1 hp']
    exact cMem_ok (hc (head_steer (cell_of (ta_head r)))) _ _ _
  · rw [he] at hb
    have hb := of_decide_eq_true hb
    refine ⟨⟨t', Rep.of hO ?_ g3 g4 (Or.inl g5.symm) g6 ((K1.trans g7).trans a3)⟩, o2.trans (a3.mono fun x hx => List.mem_append_left _ hx)⟩
    have : ((r.ix (h + 1) : Nat) : Int) = ((h + 1 : Nat) : Int) + -(r.cap : Int) := by unfold ix; rw [if_neg (by omega)]; omega
    rw [this]
    exact a2
  · rw [he] at hb
    have hb := of_decide_eq_false hb
    refine ⟨⟨t', Rep.of hO ?_ g3 g4 (Or.inl g5.symm) g6 (K1.trans g7)⟩, o2⟩
    have : r.ix (h + 1) = h + 1 := by unfold ix; rw [if_pos (by omega)]
    rw [this]
    exact g2

/-- Jumping to an element. -/
theorem jump_ok {L : Layout} {r : Ring} (hO : r.Ok L) {s : Mem} {t : Nat} {l : List W} (hC : r.Core s t l) {as : List PA} {T n j : Nat} (ha : ActsOk L as s)
    (hj : j < r.cap) (hT : runPA as s (T + 4) = BitVec.ofNat 32 (r.q + 72 * j)) (hn : runPA as s (r.pop + 4) = BitVec.ofNat 32 n) {t1 h1 : Int} {n1 c : Nat}
    (H : r.St (runPA as s) t1 h1 n1 c) (hs : Only r.steer s (runPA as s)) :
    ∃ s', JumpRel L r T n as s s' ∧ r.St s' t1 h1 n1 c ∧ Only r.steer s s' ∧ s' (r.ret + 348) = s (r.q + 72 * j + 348) := by
  have hp := hO.sep
  have hd := hp.dif
  obtain ⟨m1, m2, m3, m4, m5, m6⟩ := mem_solo (r := r)
  have e : ∀ x, r.data x → runPA as s x = s x := fun x hx => hs x (hO.dis x hx)
  obtain ⟨s1, s2, s3⟩ := hC.st j hj
  obtain ⟨p1, p2⟩ := hC.pd
  refine ⟨_, ⟨ha, _, j, rfl, hj, hT, ?_, ?_, ?_, ?_, ?_, hn, rfl⟩, ?_, ?_, ?_⟩
  · rw [e _ (Or.inl ⟨j, hj, by simp⟩), s1]
  · rw [e _ (Or.inl ⟨j, hj, by simp⟩), s2]
  · rw [e _ (Or.inl ⟨j, hj, by simp⟩), s3]
  · rw [e _ (Or.inr (by simp)), p1]
  · rw [e _ (Or.inr (by simp)), p2]
  · refine St.set (St.set H _ (fun e => hp.hs _ e m4) (fun e => hp.ts _ e m4) (Ne.symm hd.d1.2.2.1) (fun e => absurd e.symm hd.d2.2.1) (fun hq => Ne.symm (hd.d4 hq).2.2.2.1)) _
      (fun e => hp.hs _ e m5) (fun e => hp.ts _ e m5) (Ne.symm hd.d1.2.2.2.1) (fun e => absurd e.symm hd.d2.2.2.1) (fun hq => Ne.symm (hd.d4 hq).2.2.2.2.1)
  · exact (hs.set (solo_steer m4) _).set (solo_steer m5) _
  · rw [set_eq, e _ (Or.inl ⟨j, hj, by simp⟩)]

theorem popleft_does {L : Layout} {r : Ring} (hO : r.Ok L) {s : Mem} {t h : Nat} {v : W} {l : List W} (R : r.Rep s t h (v :: l)) :
    Does L (popleft L r) s fun s' => r.Rep s' (r.ix (t + 1)) h l ∧ s' (r.ret + 348) = v ∧ Only r.steer s s' := by
  have hp := hO.sep
  have hd := hp.dif
  have ht := R.ht
  have hn := R.hl
  rw [List.length_cons] at hn
  have hlt := hO.lt
  have H := R.st
  rw [List.length_cons] at H
  obtain ⟨m1, m2, m3, m4, m5, m6⟩ := mem_solo (r := r)
  have H1 : r.St (s.set (r.pop + 4) (BitVec.ofNat 32 r.wr)) t h (l.length + 1) r.wt2 :=
    H.set _ (fun e => hp.hs _ e m3) (fun e => hp.ts _ e m3) (Ne.symm hd.d1.2.1) (fun e => absurd e.symm hd.d2.1) (fun hq => Ne.symm (hd.d4 hq).2.2.1)
  have H2 := H1.move_tail hp 1
  have H3 := H2.setLen hp (len_sub (n := l.length + 1) (by omega) (by omega))
  have e : runPA r.jlActs s = (runPA (r.tail.move 1) (s.set (r.pop + 4) (BitVec.ofNat 32 r.wr))).set r.len (arith .sub (BitVec.ofNat 32 (l.length + 1)) 1) := by
    unfold jlActs
    rw [runPA_cons, aMem_run, runPA_append, runPA_cons, runPA_nil, aMem_run, arith_set, H2.len]
  have hs1 : Only r.steer s (runPA r.jlActs s) := by
    rw [e]
    exact (((Only.refl _ _).set (solo_steer m3) _).trans (Cursor.move_only _ _ fun x hx => tail_steer hx)).set (solo_steer m1) _
  have ok1 : ActsOk L r.jlActs s :=
    actsOk_mem (hO.cells _ (solo_steer m3)) (Cursor.move_ok _ _ _ _ (fun x hx => hO.cells _ (tail_steer hx)) (actsOk_mem (hO.cells _ (solo_steer m1)) trivial))
  have hj : runPA r.jlActs s (r.jl + 4) = BitVec.ofNat 32 (r.q + 72 * t) := by
    rw [e, H3.tail _ (jl_tail r), ← ofInt_nat]
    have : (r.q : Int) - 72 + 72 * ((t : Int) + 1) = ((r.q + 72 * t : Nat) : Int) := by omega
    rw [this]
  have hpn : runPA r.jlActs s (r.pop + 4) = BitVec.ofNat 32 r.wr := by
    rw [e, set_ne (Ne.symm hd.d1.2.1), Cursor.move_ne _ _ _ _ fun hc => hp.ts _ hc m3, set_eq]
  have H3' : r.St (runPA r.jlActs s) ((t + 1 : Nat) : Int) h l.length r.wt2 := by rw [e]; exact H3
  obtain ⟨s', j1, j2, j3, j4⟩ := jump_ok hO R.core ok1 ht hj hpn H3' hs1
  unfold popleft
  refine Does.seq (Does.prim j1 ?_)
  obtain ⟨w1, w2, w3, w4⟩ := wrapTail hO j2 (by omega) fun s' h' => tailMove_ok hO h' (-(r.cap : Int))
  have hv : s (r.q + 72 * t + 348) = v := by
    have := R.core.el 0 (by simp)
    rw [show r.ix (t + 0) = t from if_pos ht] at this
    exact this
  have core : r.Core s (r.ix (t + 1)) l := by
    refine ⟨fun i hi => ?_, R.core.st, R.core.pd⟩
    have := R.core.el (i + 1) (by simpa using hi)
    rw [List.getElem_cons_succ] at this
    rw [← this]
    have : r.ix (r.ix (t + 1) + i) = r.ix (t + (i + 1)) := by unfold ix; repeat' split
                                                              all_goals omega
    rw [this]
  have hret : ∀ s2, Only r.tail.cells s' s2 → s2 (r.ret + 348) = v := by
    intro s2 h2
    rw [h2 _ fun hc => hp.ts _ hc m5, j4, hv]
  have key : ∀ s2, r.St s2 (r.ix (t + 1)) h l.length r.wt2 → Only r.tail.cells s' s2 → Only r.steer s' s2 → r.Rep s2 (r.ix (t + 1)) h l ∧ s2 (r.ret + 348) = v ∧ Only r.steer s s2 := by
    intro s2 h1 h2 h3
    refine ⟨Rep.of hO h1 (ix_lt (by omega)) (by omega) ?_ core (j3.trans h3), hret s2 h2, j3.trans h3⟩
    have : r.ix (r.ix (t + 1) + l.length) = r.ix (t + (l.length + 1)) := by unfold ix; repeat' split
                                                                            all_goals omega
    rw [this]
    exact R.hh
  refine Does.trig w1 (fun hb => ⟨w2 hb, ?_⟩) fun hb => ?_
  · rw [if_pos hb] at w3 w4
    exact key _ w3 (Cursor.move_only _ _ fun x hx => hx) w4
  · rw [if_neg (by simp [hb])] at w3
    exact key _ w3 (Only.refl _ _) (Only.refl _ _)

/-- A trigger that moves the head up when it is at the start. -/
theorem raiseHead {L : Layout} {r : Ring} (hO : r.Ok L) (hq : r.dq = true) {s : Mem} {t h : Int} {n c : Nat} (H : r.St s t h n c) (h0 : -1 ≤ h) (h1 : h ≤ r.cap) :
    (∀ p ∈ [r.headZero], p.Ok L s) ∧ (holdsAll s [r.headZero] = true → ActsOk L (r.head.move r.cap) s) ∧
      r.St (if holdsAll s [r.headZero] then runPA (r.head.move r.cap) s else s) t (if h ≤ 0 then h + r.cap else h) n c ∧
      Only r.head.cells s (if holdsAll s [r.headZero] then runPA (r.head.move r.cap) s else s) := by
  obtain ⟨a1, a2, a3⟩ := headMove_ok hO H r.cap
  refine ⟨?_, fun _ => a1, ?_⟩
  · intro p hp
    rw [List.mem_singleton.1 hp]
    exact cMem_ok (hO.cells _ (head_steer (cell_of (jp_head hq)))) _ _ _
  · rw [headZero_holds hO hq H h0 h1]
    by_cases e : h ≤ 0
    · rw [if_pos (by simpa using e), if_pos e]
      exact ⟨a2, Cursor.move_only _ _ fun x hx => hx⟩
    · rw [if_neg (by simpa using e), if_neg e]
      exact ⟨H, Only.refl _ _⟩

theorem popright_does {L : Layout} {r : Ring} (hO : r.Ok L) (hq : r.dq = true) {s : Mem} {t h : Nat} {v : W} {l : List W} (R : r.Rep s t h (l ++ [v])) :
    Does L (popright L r) s fun s' => r.Rep s' t (r.ix (t + l.length)) l ∧ s' (r.ret + 348) = v ∧ Only r.steer s s' := by
  have hp := hO.sep
  have hd := hp.dif
  have ht := R.ht
  have hn := R.hl
  have hhd := R.hh
  have H := R.st
  rw [List.length_append, List.length_singleton] at hn hhd H
  have hlt := hO.lt
  obtain ⟨m1, m2, m3, m4, m5, m6⟩ := mem_solo (r := r)
  have hcap : h ≤ r.cap := by
    have := ix_lt (r := r) (x := t + (l.length + 1))
    unfold ix at hhd
    split at hhd <;> omega
  obtain ⟨z1, z2, z3, z4⟩ := raiseHead hO hq H (by omega) (by omega)
  unfold popright
  have hix : (if (h : Int) ≤ 0 then (h : Int) + r.cap else h) = ((r.ix (t + l.length) + 1 : Nat) : Int) := by
    unfold ix at hhd ⊢
    repeat' split
    all_goals split at hhd
    all_goals omega
  rw [hix] at z3
  have hcells : Only r.steer s (if holdsAll s [r.headZero] then runPA (r.head.move r.cap) s else s) := z4.mono fun x hx => head_steer hx
  have key : ∀ s0, r.St s0 t ((r.ix (t + l.length) + 1 : Nat) : Int) (l.length + 1) r.wt2 → Only r.steer s s0 →
      Does L (.prim (JumpRel L r r.jp r.rp r.jpActs)) s0 fun s' => r.Rep s' t (r.ix (t + l.length)) l ∧ s' (r.ret + 348) = v ∧ Only r.steer s s' := by
    intro s0 H0 hs0
    have C0 : r.Core s0 t (l ++ [v]) := R.core.congr (by simp; omega) fun x hx => hs0 x (hO.dis x hx)
    have H1 : r.St (s0.set (r.pop + 4) (BitVec.ofNat 32 r.rp)) t ((r.ix (t + l.length) + 1 : Nat) : Int) (l.length + 1) r.wt2 :=
      H0.set _ (fun e => hp.hs _ e m3) (fun e => hp.ts _ e m3) (Ne.symm hd.d1.2.1) (fun e => absurd e.symm hd.d2.1) (fun hq => Ne.symm (hd.d4 hq).2.2.1)
    have H2 := H1.move_head hp (-1)
    have H3 := H2.setLen hp (len_sub (n := l.length + 1) (by omega) (by omega))
    have e : runPA r.jpActs s0 = (runPA (r.head.move (-1)) (s0.set (r.pop + 4) (BitVec.ofNat 32 r.rp))).set r.len (arith .sub (BitVec.ofNat 32 (l.length + 1)) 1) := by
      unfold jpActs
      rw [runPA_cons, aMem_run, runPA_append, runPA_cons, runPA_nil, aMem_run, arith_set, H2.len]
    have H3' : r.St (runPA r.jpActs s0) t (r.ix (t + l.length) : Nat) l.length r.wt2 := by
      rw [e]
      have : ((r.ix (t + l.length) : Nat) : Int) = ((r.ix (t + l.length) + 1 : Nat) : Int) + -1 := by omega
      rw [this]
      exact H3
    have hs1 : Only r.steer s0 (runPA r.jpActs s0) := by
      rw [e]
      exact (((Only.refl _ _).set (solo_steer m3) _).trans (Cursor.move_only _ _ fun x hx => head_steer hx)).set (solo_steer m1) _
    have ok1 : ActsOk L r.jpActs s0 :=
      actsOk_mem (hO.cells _ (solo_steer m3)) (Cursor.move_ok _ _ _ _ (fun x hx => hO.cells _ (head_steer hx)) (actsOk_mem (hO.cells _ (solo_steer m1)) trivial))
    have hj : runPA r.jpActs s0 (r.jp + 4) = BitVec.ofNat 32 (r.q + 72 * r.ix (t + l.length)) := by
      rw [H3'.head _ (jp_head hq), ← ofInt_nat]
      have : (r.q : Int) + 72 * ((r.ix (t + l.length) : Nat) : Int) = ((r.q + 72 * r.ix (t + l.length) : Nat) : Int) := by omega
      rw [this]
    have hpn : runPA r.jpActs s0 (r.pop + 4) = BitVec.ofNat 32 r.rp := by
      rw [e, set_ne (Ne.symm hd.d1.2.1), Cursor.move_ne _ _ _ _ fun hc => hp.hs _ hc m3, set_eq]
    obtain ⟨s', j1, j2, j3, j4⟩ := jump_ok hO C0 ok1 (ix_lt (by omega)) hj hpn H3' hs1
    have core : r.Core s0 t l := by
      refine ⟨fun i hi => ?_, C0.st, C0.pd⟩
      rw [C0.el i (by simp; omega), List.getElem_append_left hi]
    refine Does.prim j1 ⟨Rep.of hO j2 ht (by omega) (Or.inl rfl) core j3, ?_, hs0.trans j3⟩
    rw [j4, C0.el l.length (by simp)]
    simp
  refine Does.seq (Does.trig z1 (fun hb => ⟨z2 hb, ?_⟩) fun hb => ?_)
  · rw [if_pos hb] at z3 hcells
    exact key _ z3 hcells
  · rw [if_neg (by simp [hb])] at z3
    exact key _ z3 (Only.refl _ _)

/-- Prepending to a list of at most `cap` elements drops the last. -/
def pushleft (cap : Nat) (l : List W) (v : W) : List W := (v :: l).take cap

/-- One step back around the end of the array. -/
def bk (r : Ring) (t : Nat) : Nat := if t = 0 then r.cap - 1 else t - 1

theorem Core.pushleft {L : Layout} {r : Ring} (hO : r.Ok L) {s : Mem} {t : Nat} {l : List W} (h : r.Core s t l) (ht : t < r.cap) (hl : l.length ≤ r.cap) (v : W) :
    r.Core (s.set (r.q + 72 * r.bk t + 348) v) (r.bk t) (Ring.pushleft r.cap l v) := by
  have hcap := hO.pos
  have hb : r.bk t < r.cap := by unfold bk; split <;> omega
  refine h.set hO _ hb v fun i hi => ?_
  unfold Ring.pushleft at hi
  rw [List.length_take, List.length_cons] at hi
  cases i with
  | zero =>
    refine Or.inl ⟨if_pos hb, ?_⟩
    simp [Ring.pushleft]
  | succ i =>
    refine Or.inr ⟨?_, i, by omega, ?_, ?_⟩
    · unfold ix bk; repeat' split
      all_goals omega
    · unfold ix bk; repeat' split
      all_goals omega
    · simp [Ring.pushleft]

theorem cw2_ok {L : Layout} {r : Ring} (hO : r.Ok L) (hq : r.dq = true) {s : Mem} {t h : Int} {n c : Nat} (H : r.St s t h (n + 1) c) (hn : n + 1 < 2 ^ 32) :
    ActsOk L r.cw2Acts s ∧ r.St (runPA r.cw2Acts s) t (h + -1) n r.wh2 ∧ runPA r.cw2Acts s (r.tl + 508) = s (r.tl + 508) ∧ Only r.steer s (runPA r.cw2Acts s) := by
  have hp := hO.sep
  have hd := hp.dif
  have m1 := (mem_solo (r := r)).1
  obtain ⟨m7, m8⟩ := mem_solo2 hq
  have H1 := H.setCw2 hp hq r.wh2
  have H2 := H1.move_head hp (-1)
  have e : runPA r.cw2Acts s = (runPA (r.head.move (-1)) (s.set (r.cw2 + 4) (BitVec.ofNat 32 r.wh2))).set r.len (arith .sub (BitVec.ofNat 32 (n + 1)) 1) := by
    unfold cw2Acts
    rw [runPA_cons, aMem_run, runPA_append, runPA_cons, runPA_nil, aMem_run, arith_set, H2.len]
  refine ⟨?_, ?_, ?_, ?_⟩
  · exact actsOk_mem (hO.cells _ (solo_steer m8)) (Cursor.move_ok _ _ _ _ (fun x hx => hO.cells _ (head_steer hx)) (actsOk_mem (hO.cells _ (solo_steer m1)) trivial))
  · rw [e]
    exact H2.setLen hp (len_sub (by omega) hn)
  · rw [e, set_ne (hd.d5 hq).1, Cursor.move_ne _ _ _ _ fun hc => hp.hs _ hc m7, set_ne (Ne.symm (hd.d4 hq).2.2.2.2.2.2)]
  · rw [e]
    exact (((Only.refl _ _).set (solo_steer m8) _).trans (Cursor.move_only _ _ fun x hx => head_steer hx)).set (solo_steer m1) _

/-- The last trigger of appendleft stores the value. -/
theorem tl_ok {L : Layout} {r : Ring} (hO : r.Ok L) (hq : r.dq = true) {s : Mem} {t : Nat} {h : Int} {n c : Nat} (H : r.St s ((t + 1 : Nat) : Int) h n c) (ht : t < r.cap) :
    ActsOk L r.tlActs s ∧ r.St (runPA r.tlActs s) t h (n + 1) r.wt2 ∧ Only r.steer (s.set (r.q + 72 * t + 348) (s (r.tl + 508))) (runPA r.tlActs s) := by
  have hp := hO.sep
  have hd := hp.dif
  have m1 := (mem_solo (r := r)).1
  obtain ⟨m7, m8⟩ := mem_solo2 hq
  have H1 := H.setCw2 hp hq r.wt2
  have H2' := H1.move_tail hp (-1)
  have H2 : r.St (runPA (r.tail.move (-1)) (s.set (r.cw2 + 4) (BitVec.ofNat 32 r.wt2))) (t : Int) h n r.wt2 := by
    have : ((t + 1 : Nat) : Int) + -1 = (t : Int) := by omega
    rwa [this] at H2'
  have hval : runPA (r.tail.move (-1)) (s.set (r.cw2 + 4) (BitVec.ofNat 32 r.wt2)) (r.tl + 508) = s (r.tl + 508) := by
    rw [Cursor.move_ne _ _ _ _ fun hc => hp.ts _ hc m7, set_ne (Ne.symm (hd.d4 hq).2.2.2.2.2.2)]
  have o2 : Only r.steer s (runPA (r.tail.move (-1)) (s.set (r.cw2 + 4) (BitVec.ofNat 32 r.wt2))) :=
    ((Only.refl _ _).set (solo_steer m8) _).trans (Cursor.move_only _ _ fun x hx => tail_steer hx)
  have e1 : runPA r.tlActs s = runPA [aPut (r.tl + 488), aMem r.len .add 1] (runPA (r.tail.move (-1)) (s.set (r.cw2 + 4) (BitVec.ofNat 32 r.wt2))) := by
    unfold tlActs
    rw [runPA_cons, aMem_run, runPA_append, arith_set]
  have ok0 : ∀ {ps}, ActsOk L ps (runPA (r.tail.move (-1)) (s.set (r.cw2 + 4) (BitVec.ofNat 32 r.wt2))) →
      ActsOk L (aMem (r.cw2 + 4) .set (BitVec.ofNat 32 r.wt2) :: (r.tail.move (-1) ++ ps)) s := by
    intro ps h
    refine actsOk_mem (hO.cells _ (solo_steer m8)) (Cursor.move_ok _ _ _ _ (fun x hx => hO.cells _ (tail_steer hx)) ?_)
    rw [aMem_run, arith_set]
    exact h
  generalize runPA (r.tail.move (-1)) (s.set (r.cw2 + 4) (BitVec.ofNat 32 r.wt2)) = s2 at H2 hval o2 e1 ok0
  have e504 : s2 (r.tl + 488 + 16) = epd (r.q + 72 * t + 348) := (H2.tail _ (tl_tail hq)).trans (elem_epd hO ht)
  have hD : r.data (r.q + 72 * t + 348) := Or.inl ⟨t, ht, by simp⟩
  have hDs := hO.dis _ hD
  have H3 : r.St (s2.set (r.q + 72 * t + 348) (s2 (r.tl + 508))) t h n r.wt2 := H2.set _ (fun e => hDs (head_steer e)) (fun e => hDs (tail_steer e)) (fun e => hDs (e ▸ solo_steer m1))
    (fun e => absurd (e ▸ solo_steer mem_solo.2.1) hDs) (fun hq e => hDs (e ▸ solo_steer (mem_solo2 hq).2))
  have e2 : runPA r.tlActs s = (s2.set (r.q + 72 * t + 348) (s (r.tl + 508))).set r.len (arith .add (BitVec.ofNat 32 n) 1) := by
    rw [e1, runPA_cons, aPut_run e504 (elem_ok hO ht), runPA_cons, runPA_nil, aMem_run, H3.len, hval]
  rw [hval] at H3
  refine ⟨?_, ?_, ?_⟩
  · unfold tlActs
    exact ok0 (actsOk_put e504 (elem_ok hO ht) (hO.elem t ht).val (actsOk_mem (hO.cells _ (solo_steer m1)) trivial))
  · rw [e2]
    exact H3.setLen hp (len_add n)
  · rw [e2]
    refine Only.set ?_ (solo_steer m1) _
    intro x hx
    rw [get_set, get_set, o2 x hx]

theorem appendleft_does {L : Layout} {r : Ring} (hO : r.Ok L) (hq : r.dq = true) {s : Mem} {t h : Nat} {l : List W} (R : r.Rep s t h l) :
    Does L (appendleft L r) s fun s' => (∃ h', h' = (if l.length < r.cap then h else if h ≤ 1 then h + r.cap - 1 else h - 1) ∧ r.Rep s' (r.bk t) h' (Ring.pushleft r.cap l (s (r.tl + 508)))) ∧ Only r.scr s s' := by
  have hp := hO.sep
  have hd := hp.dif
  have ht := R.ht
  have hn := R.hl
  have hhd := R.hh
  have H := R.st
  have hlt := hO.lt
  have hpos := hO.pos
  have m1 := (mem_solo (r := r)).1
  obtain ⟨m7, m8⟩ := mem_solo2 hq
  have hcap : h ≤ r.cap := by
    have := ix_lt (r := r) (x := t + l.length)
    unfold ix at hhd
    split at hhd <;> omega
  have hbk : r.bk t < r.cap := by unfold bk; split <;> omega
  have okc : ∀ p ∈ [cMem r.len .atLeast (BitVec.ofNat 32 r.cap)], p.Ok L s := by
    intro p hp'
    rw [List.mem_singleton.1 hp']
    exact cMem_ok (hO.cells _ (solo_steer m1)) _ _ _
  have hold : holdsAll s [cMem r.len .atLeast (BitVec.ofNat 32 r.cap)] = decide (r.cap ≤ l.length) := by
    rw [holdsAll_cons, holdsAll_nil, Bool.and_true, cMem_holds, H.len]
    simp only [compare]
    rw [decide_eq_decide, ← ofInt_nat, ← ofInt_nat, ofInt_le (by omega) (by omega) (by omega) (by omega)]
    omega
  have hlen : (Ring.pushleft r.cap l (s (r.tl + 508))).length = min r.cap (l.length + 1) := by unfold Ring.pushleft; simp
  -- room is made at the other end
  have mid : ∃ (s1 : Mem) (h1 c1 : Nat), DetourRel L r.cw2 r.wh2 r.wt2 [cMem r.len .atLeast (BitVec.ofNat 32 r.cap)] r.cw2Acts [r.headZero] (r.head.move r.cap) s s1 ∧
      r.St s1 t h1 ((Ring.pushleft r.cap l (s (r.tl + 508))).length - 1) c1 ∧ s1 (r.tl + 508) = s (r.tl + 508) ∧ Only r.steer s s1 ∧ h1 = (if l.length < r.cap then h else if h ≤ 1 then h + r.cap - 1 else h - 1) ∧
      (h1 = r.ix (r.bk t + (Ring.pushleft r.cap l (s (r.tl + 508))).length) ∨ (h1 = r.cap ∧ r.ix (r.bk t + (Ring.pushleft r.cap l (s (r.tl + 508))).length) = 0)) := by
    rw [hlen]
    by_cases hf : l.length = r.cap
    · have H' : r.St s t h ((r.cap - 1) + 1) r.wt2 := by rw [show r.cap - 1 + 1 = l.length by omega]; exact H
      obtain ⟨c1, c2, c3, c4⟩ := cw2_ok hO hq H' (by omega)
      obtain ⟨z1, z2, z3, z4⟩ := raiseHead hO hq c2 (by omega) (by omega)
      rw [show min r.cap (l.length + 1) = r.cap by omega]
      refine ⟨_, (if (h : Int) + -1 ≤ 0 then (h : Int) + -1 + r.cap else (h : Int) + -1).toNat, r.wh2,
        ⟨okc, fun _ => c1, runPA r.cw2Acts s, ?_, Or.inr ⟨c2.cw2 hq, z1, z2, rfl⟩⟩, ?_, ?_, c4.trans (z4.mono fun x hx => head_steer hx), ?_, ?_⟩
      · rw [hold, if_pos (by simp [hf])]
      · rw [Int.toNat_of_nonneg (by split <;> omega)]
        exact z3
      · rw [z4 _ fun hc => hp.hs _ hc m7, c3]
      · rw [if_neg (show ¬ l.length < r.cap by omega)]
        split <;> split <;> omega
      · rw [hf] at hhd
        unfold ix bk at *
        repeat' split
        all_goals split at hhd
        all_goals omega
    · rw [show min r.cap (l.length + 1) = l.length + 1 by omega]
      refine ⟨s, h, r.wt2, ⟨okc, ?_, s, ?_, Or.inl ⟨H.cw2 hq, rfl⟩⟩, H, rfl, Only.refl _ _, by rw [if_pos (by omega)], ?_⟩
      · rw [hold]; intro h; simp at h; omega
      · rw [hold, if_neg (by simp; omega)]
      · have : r.ix (r.bk t + (l.length + 1)) = r.ix (t + l.length) := by
          unfold ix bk; repeat' split
          all_goals omega
        rw [this]
        exact hhd
  obtain ⟨s1, h1, c1, g1, g2, g3, g4, g6, g5⟩ := mid
  unfold appendleft
  refine Does.seq (Does.prim g1 (Does.seq ?_))
  -- the new element is stored below the tail
  have key : ∀ s2, r.St s2 ((r.bk t + 1 : Nat) : Int) h1 ((Ring.pushleft r.cap l (s (r.tl + 508))).length - 1) c1 → s2 (r.tl + 508) = s (r.tl + 508) → Only r.steer s s2 →
      Does L (.trig [] r.tlActs) s2 fun s' => (∃ h', h' = (if l.length < r.cap then h else if h ≤ 1 then h + r.cap - 1 else h - 1) ∧ r.Rep s' (r.bk t) h' (Ring.pushleft r.cap l (s (r.tl + 508)))) ∧ Only r.scr s s' := by
    intro s2 H2 hv o2
    obtain ⟨q1, q2, q3⟩ := tl_ok hO hq H2 hbk
    have hC : r.Core s2 t l := R.core.congr (by omega) fun x hx => o2 x (hO.dis x hx)
    have hC' := hC.pushleft hO ht hn (s (r.tl + 508))
    rw [hv] at q3
    refine Does.acts q1 ⟨⟨h1, g6, Rep.of hO ?_ hbk (by omega) g5 hC' q3⟩, ?_⟩
    · rwa [show (Ring.pushleft r.cap l (s (r.tl + 508))).length - 1 + 1 = (Ring.pushleft r.cap l (s (r.tl + 508))).length by omega] at q2
    · intro x hx
      simp only [scr, List.mem_append, not_or] at hx
      rw [q3 x hx.1, set_ne fun e => hx.2 (by rw [e]; exact mem_vals hbk), o2 x hx.1]
  obtain ⟨a1, a2, a3⟩ := tailMove_ok hO g2 r.cap
  have hz := tailZero_holds hO hq g2 (by omega)
  refine Does.trig ?_ (fun hb => ⟨a1, ?_⟩) fun hb => ?_
  · intro p hp'
    rw [List.mem_singleton.1 hp']
    exact cMem_ok (hO.cells _ (tail_steer (cell_of (tl_tail hq)))) _ _ _
  · rw [hz] at hb
    have hb := of_decide_eq_true hb
    refine key _ ?_ ?_ (g4.trans a3)
    · have : ((r.bk t + 1 : Nat) : Int) = (t : Int) + r.cap := by unfold bk; rw [if_pos hb]; omega
      rw [this]
      exact a2
    · rw [Cursor.move_ne _ _ _ _ fun hc => hp.ts _ hc m7, g3]
  · rw [hz] at hb
    have hb := of_decide_eq_false hb
    refine key _ ?_ g3 g4
    have : ((r.bk t + 1 : Nat) : Int) = (t : Int) := by unfold bk; rw [if_neg hb]; omega
    rw [this]
    exact g2

/-- append with the head at the capacity: the value goes to the dword behind the array, and the oldest element stays as the newest. -/
theorem append_beyond {L : Layout} {r : Ring} (hO : r.Ok L) {s : Mem} {v : W} {l : List W} (hcap : 2 ≤ r.cap) (R : r.Rep s 0 r.cap (v :: l)) (hl : (v :: l).length = r.cap)
    (hD : L.cell (r.q + 72 * r.cap + 348)) (hDs : r.q + 72 * r.cap + 348 ∉ r.steer) (hDd : ¬ r.data (r.q + 72 * r.cap + 348)) :
    Does L (append L r) s fun s' => r.Rep s' 1 1 (l ++ [v]) ∧ s' (r.q + 72 * r.cap + 348) = s (r.ta + 348) ∧ Only ((r.q + 72 * r.cap + 348) :: r.steer) s s' := by
  have hp := hO.sep
  have hq := hO.lt
  have hge := hO.ge
  have hal := hO.al
  have H := R.st
  obtain ⟨m1, m2, m3, m4, m5, m6⟩ := mem_solo (r := r)
  have e344 : s (r.ta + 328 + 16) = epd (r.q + 72 * r.cap + 348) := by
    refine (H.head _ (ta_head r)).trans ?_
    have h3 := hge
    rw [e0_val hO]
    unfold epd
    have : (((r.q + 348 - deathTable) / 4 : Nat) : Int) + 18 * (r.cap : Int) = ((r.q + 72 * r.cap + 348 : Nat) - 0x58A364 : Int) / 4 := by
      simp only [deathTable] at h3 ⊢
      omega
    rw [this]
  have he : EpdOK (r.q + 72 * r.cap + 348) := by
    simp only [deathTable] at hge
    exact ⟨by omega, by omega, Or.inr (by simp only [deathTable]; omega)⟩
  obtain ⟨ok1, H1, K1⟩ := append_first hO H e344 he hD hDs
  rw [hl] at H1
  unfold append
  refine Does.seq (Does.acts ok1 (Does.seq ?_))
  generalize runPA r.appActs s = s1 at H1 K1 ⊢
  have okc : ∀ p ∈ [cMem r.len .atLeast (BitVec.ofNat 32 (r.cap + 1))], p.Ok L s1 := by
    intro p hp'
    rw [List.mem_singleton.1 hp']
    exact cMem_ok (hO.cells _ (solo_steer m1)) _ _ _
  have hold : holdsAll s1 [cMem r.len .atLeast (BitVec.ofNat 32 (r.cap + 1))] = true := by
    rw [holdsAll_cons, holdsAll_nil, Bool.and_true, cMem_holds, H1.len]
    simp only [compare]
    rw [decide_eq_true_eq]
    exact BitVec.le_refl _
  obtain ⟨c1, c2, c3, c4⟩ := cw_ok hO H1 (by omega)
  have c2' : r.St (runPA r.cwActs s1) ((1 : Nat) : Int) ((r.cap + 1 : Nat) : Int) r.cap r.wt2 := c2
  obtain ⟨w1, w2, w3, w4⟩ := wrapTail hO c2' (by omega) (as := r.wtActs) fun s' h' => wt_ok hO h'
  rw [show r.ix 1 = 1 from if_pos (by omega)] at w3
  refine Does.prim ⟨okc, fun _ => c1, runPA r.cwActs s1, ?_, Or.inr ⟨c3, w1, w2, rfl⟩⟩ ?_
  · rw [hold, if_pos rfl]
  generalize (if holdsAll (runPA r.cwActs s1) [r.tailEnd] = true then runPA r.wtActs (runPA r.cwActs s1) else runPA r.cwActs s1) = s3 at w3 w4 ⊢
  obtain ⟨a1, a2, a3⟩ := headMove_ok hO w3 (-(r.cap : Int))
  have hb := headEnd_holds hO w3 (by omega)
  refine Does.trig ?_ (fun _ => ⟨a1, ?_⟩) fun h0 => ?_
  · intro p hp'
    rw [List.mem_singleton.1 hp']
    exact cMem_ok (hO.cells _ (head_steer (cell_of (ta_head r)))) _ _ _
  · have o : Only r.steer (s.set (r.q + 72 * r.cap + 348) (s (r.ta + 348))) (runPA (r.head.move (-(r.cap : Int))) s3) := ((K1.trans c4).trans w4).trans a3
    have hlen : (l ++ [v]).length = r.cap := by simp at hl ⊢; omega
    have hC : r.Core (s.set (r.q + 72 * r.cap + 348) (s (r.ta + 348))) 0 (v :: l) := R.core.congr (by omega) fun x hx => set_ne fun e => hDd (e ▸ hx)
    refine ⟨Rep.of hO ?_ (by omega) (by omega) (Or.inl ?_) ⟨fun i hi => ?_, hC.st, hC.pd⟩ o, ?_, fun x hx => ?_⟩
    · rw [hlen]
      have : ((r.cap + 1 : Nat) : Int) + -(r.cap : Int) = ((1 : Nat) : Int) := by omega
      rwa [this] at a2
    · rw [hlen]; unfold ix; rw [if_neg (by omega)]; omega
    · rw [hlen] at hi
      by_cases e : i + 1 = r.cap
      · have := hC.el 0 (by simp)
        have e1 : r.ix (1 + i) = r.ix (0 + 0) := by unfold ix; rw [if_neg (by omega), if_pos (by omega)]; omega
        have e2 : i = l.length := by simp at hl; omega
        rw [e1, this]
        subst e2
        simp
      · have := hC.el (i + 1) (by omega)
        rw [show 1 + i = 0 + (i + 1) by omega, this, List.getElem_cons_succ, List.getElem_append_left]
    · rw [o _ hDs, set_eq]
    · rw [List.mem_cons, not_or] at hx
      rw [o x hx.2, set_ne hx.1]
  · rw [hb] at h0
    have := of_decide_eq_false h0
    omega

/-! ### Emptying -/

theorem Cursor.init_spec : ∀ (c : Cursor) (s : Mem), c.cells.Nodup →
    (∀ x, x ∉ c.cells → runPA (c.map fun e => aMem e.1 .set (BitVec.ofInt 32 e.2.1)) s x = s x) ∧ c.at_ (runPA (c.map fun e => aMem e.1 .set (BitVec.ofInt 32 e.2.1)) s) 0
  | [], _, _ => ⟨fun _ _ => rfl, fun _ h => nomatch h⟩
  | e :: c, s, hd => by
    rw [Cursor.cells, List.map_cons, List.nodup_cons] at hd
    obtain ⟨i1, i2⟩ := Cursor.init_spec c (s.set e.1 (BitVec.ofInt 32 e.2.1)) hd.2
    refine ⟨fun x hx => ?_, fun e' he => ?_⟩
    · rw [Cursor.cells, List.map_cons, List.mem_cons, not_or] at hx
      rw [List.map_cons, runPA_cons, aMem_run, arith_set, i1 x hx.2, set_ne hx.1]
    · rw [List.map_cons, runPA_cons, aMem_run, arith_set]
      rcases List.mem_cons.1 he with rfl | he
      · rw [i1 _ hd.1, set_eq]
        simp
      · exact i2 _ he

theorem Cursor.init_ok {L : Layout} : ∀ (c : Cursor) (s : Mem) (ps : List PA), (∀ x ∈ c.cells, L.cell x) → ActsOk L ps (runPA (c.map fun e => aMem e.1 .set (BitVec.ofInt 32 e.2.1)) s) →
    ActsOk L ((c.map fun e => aMem e.1 .set (BitVec.ofInt 32 e.2.1)) ++ ps) s
  | [], _, _, _, h => h
  | e :: c, s, ps, hc, h => actsOk_mem (hc _ (by simp [Cursor.cells])) (Cursor.init_ok c _ ps (fun x hx => hc x (by simp [Cursor.cells] at hx ⊢; exact Or.inr hx)) h)

theorem clear_does {L : Layout} {r : Ring} (hO : r.Ok L) {s : Mem} {t h : Nat} {l : List W} (R : r.Rep s t h l) :
    Does L (clear r) s fun s' => r.Rep s' 0 0 [] ∧ Only r.steer s s' := by
  have hp := hO.sep
  have hd := hp.dif
  have hpos := hO.pos
  obtain ⟨m1, m2, m3, m4, m5, m6⟩ := mem_solo (r := r)
  have hnd : (r.head ++ r.tail).cells.Nodup := by
    simp only [Cursor.cells, List.map_append]
    rw [List.nodup_append]
    exact ⟨hp.nh, hp.nt, fun x hx y hy e => hp.ht x hx (e ▸ hy)⟩
  have hmem : ∀ x ∈ (r.head ++ r.tail).cells, x ∈ r.head.cells ∨ x ∈ r.tail.cells := by
    intro x hx
    simp only [Cursor.cells, List.map_append, List.mem_append] at hx ⊢
    exact hx
  have hsteer : ∀ x ∈ (r.head ++ r.tail).cells, x ∈ r.steer := fun x hx => (hmem x hx).elim head_steer tail_steer
  have hsolo : ∀ x ∈ r.solo, x ∉ (r.head ++ r.tail).cells := fun x hx hc => (hmem x hc).elim (fun h => hp.hs _ h hx) (fun h => hp.ts _ h hx)
  obtain ⟨i1, i2⟩ := Cursor.init_spec (r.head ++ r.tail) s hnd
  have H : r.St s t h l.length r.wt2 := R.st
  refine Does.acts (Cursor.init_ok _ _ _ (fun x hx => hO.cells _ (hsteer x hx)) (actsOk_mem (hO.cells _ (solo_steer m1)) trivial)) ?_
  have o : Only r.steer s (runPA (((r.head ++ r.tail).map fun e => aMem e.1 .set (BitVec.ofInt 32 e.2.1)) ++ [aMem r.len .set 0]) s) := by
    rw [runPA_append, runPA_cons, runPA_nil, aMem_run]
    exact Only.set (fun x hx => i1 x fun hc => hx (hsteer x hc)) (solo_steer m1) _
  refine ⟨Rep.of hO ?_ hpos (by simp) (Or.inl (by unfold ix; simp [hpos])) ⟨fun i hi => absurd hi (by simp), R.core.st, R.core.pd⟩ o, o⟩
  rw [runPA_append, runPA_cons, runPA_nil, aMem_run]
  have H1 : r.St (runPA ((r.head ++ r.tail).map fun e => aMem e.1 .set (BitVec.ofInt 32 e.2.1)) s) 0 0 l.length r.wt2 := by
    refine ⟨?_, fun e he => i2 e (List.mem_append_right _ he), fun e he => i2 e (List.mem_append_left _ he), ?_, fun h => ?_⟩
    · rw [i1 _ (hsolo _ m1)]; exact H.len
    · rw [i1 _ (hsolo _ m2)]; exact H.cw
    · rw [i1 _ (hsolo _ (mem_solo2 h).2)]; exact H.cw2 h
  exact H1.setLen hp rfl

end Ring

/-! ## Code -/

namespace Ring

/-- The trigger `T` jumps into the array; the array and `pop` are variables. -/
theorem jump_code {L : Layout} {r : Ring} (hw : L.Wf) (hO : r.Ok L) {T n : Nat} {as : List PA} (hb : (⟨T, ⟨[], as.map PA.a⟩, none, false⟩ : SBlk) ∈ L.P.blks)
    (h4 : ¬ L.priv (T + 4)) (ha : PlacedA (T + 328) as) (hn : n < 2 ^ 32) {u b k : Nat} : Code L u b k (.prim (JumpRel L r T n as)) T n := by
  refine .prim ?_
  rintro s s' ⟨a1, s1, j, rfl, hj, e1, e2, e3, e4, e5, e6, e7, rfl⟩
  have hlt := hO.lt
  have hpl := hO.plt
  have hs := hO.dis
  obtain ⟨m1, m2, m3, m4, m5, m6⟩ := mem_solo (r := r)
  have hp := hO.sep
  have hd := hp.dif
  have g := Layout.Runs.dyn hw hb h4 (cs := []) trivial ha (s := s) (by simp) (fun _ => a1)
  rw [holdsAll_nil, if_pos rfl, e1, BitVec.toNat_ofNat, Nat.mod_eq_of_lt (by omega)] at g
  have q1 : r.q + 72 * j + 4 ≠ r.pop + 348 := fun e => hs _ (Or.inl ⟨j, hj, by simp⟩) (e ▸ solo_steer m4)
  have g1 := Layout.Runs.pvar (hO.elem j hj) e4 e3 hO.ep hO.pv.val
  rw [set_ne q1, e2, BitVec.toNat_ofNat, Nat.mod_eq_of_lt hpl] at g1
  have p1 : r.pop + 344 ≠ r.pop + 348 := by omega
  have p2 : r.pop + 352 ≠ r.pop + 348 := by omega
  have g2 := Layout.Runs.pvar hO.pv (s := (runPA as s).set (r.pop + 348) (runPA as s (r.q + 72 * j + 348))) (by rw [set_ne p2]; exact e6) (by rw [set_ne p1]; exact e5) hO.er
    (hO.cells _ (solo_steer m5))
  rw [set_eq, set_ne hd.d3.1, set_ne (by omega), e7, BitVec.toNat_ofNat, Nat.mod_eq_of_lt hn] at g2
  exact (g.trans g1).trans g2

/-! ## Calls -/

/-- What the representation reads. -/
def own (r : Ring) (x : Nat) : Prop := x ∈ r.head.cells ∨ x ∈ r.tail.cells ∨ x = r.len ∨ x = r.cw + 4 ∨ (r.dq = true ∧ x = r.cw2 + 4) ∨ r.data x

theorem Rep.congr {r : Ring} {s s' : Mem} {t h : Nat} {l : List W} (R : r.Rep s t h l) (hs : ∀ x, r.own x → s' x = s x) : r.Rep s' t h l := by
  have ht := R.ht
  have hl := R.hl
  refine ⟨ht, hl, R.hh, ?_, Cursor.at_congr R.tail fun x hx => hs x (Or.inr (Or.inl hx)), Cursor.at_congr R.head fun x hx => hs x (Or.inl hx), ?_, fun hq => ?_,
    R.core.congr (by omega) fun x hx => hs x (by unfold own; simp [hx])⟩
  · rw [hs _ (by unfold own; simp)]; exact R.len
  · rw [hs _ (by unfold own; simp)]; exact R.cw
  · rw [hs _ (by unfold own; simp [hq])]; exact R.cw2 hq

theorem Rep.only {r : Ring} {s s' : Mem} {t h : Nat} {l : List W} (R : r.Rep s t h l) {X : List Nat} (ho : Only X s s') (hX : ∀ x ∈ X, ¬ r.own x) : r.Rep s' t h l :=
  R.congr fun x hx => ho x fun h => hX x h hx

/-- The parameters are read by the operations only. -/
theorem ta_own {L : Layout} {r : Ring} (hO : r.Ok L) : ¬ r.own (r.ta + 348) := by
  have hp := hO.sep
  have hd := hp.dif
  have m := (mem_solo (r := r)).2.2.2.2.2
  rintro (h | h | h | h | ⟨hq, h⟩ | h)
  · exact hp.hs _ h m
  · exact hp.ts _ h m
  · exact hd.d1.2.2.2.2 h.symm
  · exact hd.d2.2.2.2 h.symm
  · exact (hd.d4 hq).2.2.2.2.2.1 h.symm
  · exact hO.dis _ h (solo_steer m)

theorem tl_own {L : Layout} {r : Ring} (hO : r.Ok L) (hq : r.dq = true) : ¬ r.own (r.tl + 508) := by
  have hp := hO.sep
  have hd := hp.dif
  have m := (mem_solo2 hq).1
  rintro (h | h | h | h | ⟨hq, h⟩ | h)
  · exact hp.hs _ h m
  · exact hp.ts _ h m
  · exact (hd.d5 hq).1 h
  · exact (hd.d5 hq).2.1 h
  · exact (hd.d4 hq).2.2.2.2.2.2 h.symm
  · exact hO.dis _ h (solo_steer m)

theorem call_append {L : Layout} (hw : L.Wf) {r : Ring} (hO : r.Ok L) {fend nptr fstart back : Nat} {x : Src}
    (hk : CallOk L nptr [] [(r.ta + 348, x)] r.scr) (hF : FuncCode L fstart fend nptr [] (append L r)) (hback : back < 2 ^ 32) (hn : ¬ r.own nptr)
    {s : Mem} {t h : Nat} {l : List W} (R : r.Rep s t h l) (hh : h < r.cap) :
    Does L (.prim (CallRel L fend nptr back (append L r) [] [(r.ta + 348, x)])) s fun s' =>
      (∃ t' h', h' < r.cap ∧ r.Rep s' t' h' (push r.cap l (x.valM s))) ∧ Only (callOnly nptr [] [(r.ta + 348, x)] r.scr) s s' := by
  refine Does.mono (C31_does hw hk hF hback (Q := fun s2 => ∃ t' h', h' < r.cap ∧ r.Rep s2 t' h' (push r.cap l (x.valM s))) ?_) ?_
  · intro s1 a1 o1
    have v1 : s1 (r.ta + 348) = x.valM s := a1 (r.ta + 348, x) (by simp)
    have R1 := R.only o1 (fun y hy => by
      simp only [List.map_nil, List.nil_append, List.map_cons, List.mem_cons, List.not_mem_nil, or_false] at hy
      rcases hy with rfl | rfl
      · exact hn
      · exact ta_own hO)
    refine Wp.mono (append_does hO R1 hh).wp ?_
    rintro o s2 ⟨rfl, ⟨t', R2⟩, o2⟩
    rw [v1] at R2
    exact ⟨Or.inl rfl, ⟨t', _, ix_lt (by omega), R2⟩, o2⟩
  · rintro s' ⟨⟨s2, ⟨t', h', g1, g2⟩, -, o2⟩, o⟩
    exact ⟨⟨t', h', g1, g2.only o2 (by simp)⟩, o⟩

theorem call_appendleft {L : Layout} (hw : L.Wf) {r : Ring} (hO : r.Ok L) (hq : r.dq = true) {fend nptr fstart back : Nat} {x : Src}
    (hk : CallOk L nptr [] [(r.tl + 508, x)] r.scr) (hF : FuncCode L fstart fend nptr [] (appendleft L r)) (hback : back < 2 ^ 32) (hn : ¬ r.own nptr)
    {s : Mem} {t h : Nat} {l : List W} (R : r.Rep s t h l) :
    Does L (.prim (CallRel L fend nptr back (appendleft L r) [] [(r.tl + 508, x)])) s fun s' =>
      (∃ t' h', (h < r.cap → l.length < r.cap → h' < r.cap) ∧ r.Rep s' t' h' (pushleft r.cap l (x.valM s))) ∧ Only (callOnly nptr [] [(r.tl + 508, x)] r.scr) s s' := by
  refine Does.mono (C31_does hw hk hF hback (Q := fun s2 => ∃ t' h', (h < r.cap → l.length < r.cap → h' < r.cap) ∧ r.Rep s2 t' h' (pushleft r.cap l (x.valM s))) ?_) ?_
  · intro s1 a1 o1
    have v1 : s1 (r.tl + 508) = x.valM s := a1 (r.tl + 508, x) (by simp)
    have R1 := R.only o1 (fun y hy => by
      simp only [List.map_nil, List.nil_append, List.map_cons, List.mem_cons, List.not_mem_nil, or_false] at hy
      rcases hy with rfl | rfl
      · exact hn
      · exact tl_own hO hq)
    refine Wp.mono (appendleft_does hO hq R1).wp ?_
    rintro o s2 ⟨rfl, ⟨h', e', R2⟩, o2⟩
    rw [v1] at R2
    exact ⟨Or.inl rfl, ⟨_, h', fun a b => by rw [e', if_pos b]; exact a, R2⟩, o2⟩
  · rintro s' ⟨⟨s2, ⟨t', h', g1, g2⟩, -, o2⟩, o⟩
    exact ⟨⟨t', h', g1, g2.only o2 (by simp)⟩, o⟩

/-- popleft and pop: the result goes through `ret` and the function's result variable `fr` to `o`. -/
theorem call_pop {L : Layout} (hw : L.Wf) {r : Ring} (hO : r.Ok L) {fend nptr fstart back fr o : Nat} {body : Stmt}
    (hk : CallOk L nptr [(fr, o)] [] (r.steer ++ [fr + 348])) (hF : FuncCode L fstart fend nptr [fr] (.seq body (retVar fr r.ret))) (hback : back < 2 ^ 32)
    (hfr : L.cell (fr + 348)) (hn : ∀ x ∈ [nptr, o, fr + 4, fr + 344, fr + 348], ¬ r.own x) {s : Mem} {t h t' h' : Nat} {l l' : List W} {v : W} (R : r.Rep s t h l)
    (hb : ∀ s1, r.Rep s1 t h l → Does L body s1 fun s' => r.Rep s' t' h' l' ∧ s' (r.ret + 348) = v ∧ Only r.steer s1 s') :
    Does L (.prim (CallRel L fend nptr back (.seq body (retVar fr r.ret)) [(fr, o)] [])) s fun s' =>
      s' o = v ∧ r.Rep s' t' h' l' ∧ Only (callOnly nptr [(fr, o)] [] (r.steer ++ [fr + 348])) s s' := by
  refine Does.mono (C31_does hw hk hF hback (Q := fun s2 => s2 (fr + 348) = v ∧ r.Rep s2 t' h' l') ?_) ?_
  · intro s1 a1 o1
    have R1 := R.only o1 (fun y hy => by
      simp only [List.map_nil, List.append_nil, List.map_cons, List.mem_cons, List.not_mem_nil, or_false] at hy
      rcases hy with rfl | rfl
      · exact hn _ (by simp)
      · exact hn _ (by simp))
    refine Wp.seqN ((hb s1 R1).mono ?_)
    rintro s2 ⟨R2, e2, o2⟩
    refine Wp.seqN (Does.asg (by simpa using hfr) (by simpa using hO.vr) (Wp.ret ⟨Or.inr rfl, ⟨?_, ?_⟩, ?_⟩))
    · rw [show runAsg [⟨fr + 348, .set, .var r.ret⟩] s2 = s2.set (fr + 348) (s2 (r.ret + 348)) from rfl, set_eq, e2]
    · exact R2.only (X := [fr + 348]) ((Only.refl _ _).set (by simp) _) fun y hy => by rw [List.mem_singleton.1 hy]; exact hn _ (by simp)
    · exact (o2.mono fun y hy => List.mem_append_left _ hy).set (by simp) _
  · rintro s' ⟨⟨s2, ⟨g1, g2⟩, g3, o2⟩, o⟩
    refine ⟨(g3 _ (List.mem_singleton.2 rfl)).trans g1, g2.only o2 fun y hy => ?_, o⟩
    simp only [List.map_nil, List.map_cons, List.mem_cons, List.not_mem_nil, or_false, List.cons_append, List.nil_append] at hy
    rcases hy with rfl | rfl <;> exact hn _ (by simp)

end Ring

/-! ## Histories -/

/-- What a program does with a queue: calls with their places, and assignments among its own dwords. -/
inductive RingOp
  | append (back : Nat) (x : Src)
  | popleft (back o : Nat)
  | appendleft (back : Nat) (x : Src)
  | pop (back o : Nat)
  | clear
  | length (o lv : Nat)
  | user (gs : List Asg)

/-- Where the functions are: end, pointer at the end, start, and result variable. -/
structure RingFns where
  fa : Nat
  na : Nat
  sa : Nat
  fp : Nat
  np : Nat
  sp : Nat
  rp : Nat
  fl : Nat
  nl : Nat
  sl : Nat
  fq : Nat
  nq : Nat
  sq : Nat
  rq : Nat

/-- The operation as a statement (eudqueue.py:204-222, 482-510). -/
def RingOp.stmt (L : Layout) (r : Ring) (F : RingFns) : RingOp → Stmt
  | .append back x => .prim (CallRel L F.fa F.na back (r.append L) [] [(r.ta + 348, x)])
  | .popleft back o => .prim (CallRel L F.fp F.np back (.seq (r.popleft L) (retVar F.rp r.ret)) [(F.rp, o)] [])
  | .appendleft back x => .prim (CallRel L F.fl F.nl back (r.appendleft L) [] [(r.tl + 508, x)])
  | .pop back o => .prim (CallRel L F.fq F.nq back (.seq (r.popright L) (retVar F.rq r.ret)) [(F.rq, o)] [])
  | .clear => r.clear
  | .length o lv => .asg [⟨o, .set, .var lv⟩]
  | .user gs => .asg gs

/-- The functions are there, and the dwords `U` of the program are not theirs. -/
structure RingFns.Ok (L : Layout) (r : Ring) (F : RingFns) (U : List Nat) : Prop where
  append : FuncCode L F.sa F.fa F.na [] (r.append L)
  popleft : FuncCode L F.sp F.fp F.np [F.rp] (.seq (r.popleft L) (retVar F.rp r.ret))
  appendleft : r.dq = true → FuncCode L F.sl F.fl F.nl [] (r.appendleft L)
  pop : r.dq = true → FuncCode L F.sq F.fq F.nq [F.rq] (.seq (r.popright L) (retVar F.rq r.ret))
  own : ∀ x ∈ [F.na, F.np, F.rp + 4, F.rp + 344, F.rp + 348], ¬ r.own x
  own2 : r.dq = true → ∀ x ∈ [F.nl, F.nq, F.rq + 4, F.rq + 344, F.rq + 348], ¬ r.own x
  cell : L.cell (F.rp + 348)
  cell2 : r.dq = true → L.cell (F.rq + 348)
  free : ∀ x ∈ U, ¬ r.own x ∧ x ∉ r.scr ++ [F.na, F.np, F.rp + 4, F.rp + 344, F.rp + 348]
  free2 : r.dq = true → ∀ x ∈ U, x ∉ [F.nl, F.nq, F.rq + 4, F.rq + 344, F.rq + 348]

/-- An operand of the program. -/
def SrcIn (U : List Nat) (x : Src) : Prop := ∀ v, x = .var v → v + 348 ∈ U

/-- The call sites are in order. -/
def RingOp.Ok (L : Layout) (r : Ring) (F : RingFns) (U : List Nat) : RingOp → Prop
  | .append back x => back < 2 ^ 32 ∧ CallOk L F.na [] [(r.ta + 348, x)] r.scr ∧ SrcIn U x
  | .popleft back o => back < 2 ^ 32 ∧ CallOk L F.np [(F.rp, o)] [] (r.steer ++ [F.rp + 348]) ∧ o ∈ U
  | .appendleft back x => back < 2 ^ 32 ∧ CallOk L F.nl [] [(r.tl + 508, x)] r.scr ∧ SrcIn U x
  | .pop back o => back < 2 ^ 32 ∧ CallOk L F.nq [(F.rq, o)] [] (r.steer ++ [F.rq + 348]) ∧ o ∈ U
  | .clear => True
  | .length o lv => L.cell o ∧ lv ∈ L.P.vars ∧ lv + 348 = r.len ∧ o ∈ U
  | .user gs => (∀ g ∈ gs, L.cell g.a ∧ g.a ∈ U ∧ SrcIn U g.src) ∧ ∀ g ∈ gs, ∀ v, g.src = .var v → v ∈ L.P.vars

/-- A bounded queue: what each operation does to the elements and to the program's dwords.  `none` where nothing is claimed. -/
def RingOp.queue (cap : Nat) : RingOp → List W × Mem → Option (List W × Mem)
  | .append _ x, (l, e) => some ((l ++ [x.valM e]).drop (l.length + 1 - cap), e)
  | .popleft _ o, (v :: l, e) => some (l, e.set o v)
  | .clear, (_, e) => some ([], e)
  | .length o _, (l, e) => some (l, e.set o (BitVec.ofNat 32 l.length))
  | .user gs, (l, e) => some (l, runAsg gs e)
  | _, _ => none

/-- A bounded double-ended queue.  The flag tells that an element was pushed out by appendleft; then nothing is claimed about append. -/
def RingOp.deque (cap : Nat) : RingOp → List W × Bool × Mem → Option (List W × Bool × Mem)
  | .append _ x, (l, false, e) => some ((l ++ [x.valM e]).drop (l.length + 1 - cap), false, e)
  | .appendleft _ x, (l, b, e) => some ((x.valM e :: l).take cap, b || decide (l.length = cap), e)
  | .popleft _ o, (v :: l, b, e) => some (l, b, e.set o v)
  | .pop _ o, (v :: l, _, e) => some ((v :: l).dropLast, false, e.set o ((v :: l).getLast (by simp)))
  | .clear, (_, _, e) => some ([], false, e)
  | .length o _, (l, b, e) => some (l, b, e.set o (BitVec.ofNat 32 l.length))
  | .user gs, (l, b, e) => some (l, b, runAsg gs e)
  | _, _ => none

/-- A history. -/
def runOps {σ : Type} (f : RingOp → σ → Option σ) : List RingOp → σ → Option σ
  | [], a => some a
  | o :: os, a => (f o a).bind (runOps f os)

/-- The memory holds the elements `l`, and the program's dwords are those of `e`; without the flag the head is inside the array. -/
def RingIs (r : Ring) (U : List Nat) (s : Mem) (a : List W × Bool × Mem) : Prop :=
  (∃ t h, r.Rep s t h a.1 ∧ (a.2.1 = false → h < r.cap)) ∧ ∀ u ∈ U, s u = a.2.2 u

theorem valM_in {U : List Nat} {s e : Mem} (h : ∀ u ∈ U, s u = e u) {x : Src} (hx : SrcIn U x) : x.valM s = x.valM e := by
  cases x with
  | const w => rfl
  | var v => exact h _ (hx v rfl)

theorem runAsg_in {U : List Nat} : ∀ (gs : List Asg) {s e : Mem}, (∀ u ∈ U, s u = e u) → (∀ g ∈ gs, g.a ∈ U ∧ SrcIn U g.src) → (∀ u ∈ U, runAsg gs s u = runAsg gs e u) ∧ Only U s (runAsg gs s)
  | [], s, e, h, _ => ⟨h, Only.refl _ _⟩
  | g :: gs, s, e, h, hg => by
    obtain ⟨g1, g2⟩ := hg g (by simp)
    have h' : ∀ u ∈ U, s.set g.a (arith g.md (s g.a) (g.src.valM s)) u = e.set g.a (arith g.md (e g.a) (g.src.valM e)) u := by
      intro u hu
      rw [get_set, get_set, valM_in h g2, h _ g1, h u hu]
    obtain ⟨i1, i2⟩ := runAsg_in gs h' fun g hg' => hg g (by simp [hg'])
    exact ⟨i1, ((Only.refl _ _).set g1 _).trans i2⟩

theorem ringStep {L : Layout} (hw : L.Wf) {r : Ring} (hO : r.Ok L) {F : RingFns} {U : List Nat} (hF : F.Ok L r U) {op : RingOp} (hop : op.Ok L r F U)
    (hdq : r.dq = false → ∀ back x, op ≠ .appendleft back x ∧ ∀ o, op ≠ .pop back o) {s : Mem} {a a' : List W × Bool × Mem} (hI : RingIs r U s a) (hs : op.deque r.cap a = some a') :
    Does L (op.stmt L r F) s fun s' => RingIs r U s' a' := by
  obtain ⟨l, b, e⟩ := a
  obtain ⟨⟨t, h, R, hh⟩, hU⟩ := hI
  simp only at R hh hU
  have own := hF.own
  have fr : ∀ {X : List Nat} {s' : Mem}, Only X s s' → (∀ x ∈ U, x ∉ X) → ∀ u ∈ U, s' u = e u := fun ho hX u hu => (ho u (hX u hu)).trans (hU u hu)
  have fr1 : ∀ {X : List Nat} {s' : Mem} {o : Nat} {v : W}, s' o = v → Only X s s' → (∀ x ∈ U, x ∈ X → x = o) → ∀ u ∈ U, s' u = e.set o v u := by
    intro X s' o v hv ho hX u hu
    rw [get_set]
    split
    · subst u; exact hv
    · rename_i hne
      exact (ho u fun hx => hne (hX u hu hx)).trans (hU u hu)
  cases op with
  | append back x =>
    cases b with
    | true => simp [RingOp.deque] at hs
    | false =>
      simp only [RingOp.deque, Option.some.injEq] at hs
      subst hs
      obtain ⟨o1, o2, o3⟩ := hop
      refine (Ring.call_append hw hO o2 hF.append o1 (own _ (by simp)) R (hh rfl)).mono ?_
      rintro s' ⟨⟨t', h', g1, g2⟩, g3⟩
      rw [valM_in hU o3] at g2
      refine ⟨⟨t', h', g2, fun _ => g1⟩, fr g3 fun u hu hc => ?_⟩
      have := (hF.free u hu).2
      simp only [callOnly, List.map_nil, List.nil_append, List.map_cons, List.mem_cons, List.mem_append, List.not_mem_nil, or_false, not_or] at hc this
      rcases hc with hc | hc | hc
      · exact this.2.1 hc
      · exact this.1 (hc ▸ List.mem_append_left _ (Ring.solo_steer Ring.mem_solo.2.2.2.2.2))
      · exact this.1 hc
  | appendleft back x =>
    have hq : r.dq = true := by
      cases hq : r.dq with
      | true => rfl
      | false => exact absurd rfl ((hdq hq back x).1)
    simp only [RingOp.deque, Option.some.injEq] at hs
    subst hs
    obtain ⟨o1, o2, o3⟩ := hop
    refine (Ring.call_appendleft hw hO hq o2 (hF.appendleft hq) o1 (hF.own2 hq _ (by simp)) R).mono ?_
    rintro s' ⟨⟨t', h', g1, g2⟩, g3⟩
    rw [valM_in hU o3] at g2
    refine ⟨⟨t', h', g2, fun hb => ?_⟩, fr g3 fun u hu hc => ?_⟩
    · simp only [Bool.or_eq_false_iff, decide_eq_false_iff_not] at hb
      have := R.hl
      exact g1 (hh hb.1) (by omega)
    · have := (hF.free u hu).2
      have this2 := hF.free2 hq u hu
      simp only [callOnly, List.map_nil, List.nil_append, List.map_cons, List.mem_cons, List.mem_append, List.not_mem_nil, or_false, not_or] at hc this this2
      rcases hc with hc | hc | hc
      · exact this2.1 hc
      · exact this.1 (hc ▸ List.mem_append_left _ (Ring.solo_steer (Ring.mem_solo2 hq).1))
      · exact this.1 hc
  | popleft back o =>
    cases l with
    | nil => simp [RingOp.deque] at hs
    | cons v l =>
      simp only [RingOp.deque, Option.some.injEq] at hs
      subst hs
      obtain ⟨o1, o2, o3⟩ := hop
      refine (Ring.call_pop hw hO o2 hF.popleft o1 hF.cell ?_ R fun s1 R1 => Ring.popleft_does hO R1).mono ?_
      · intro x hx
        simp only [List.mem_cons, List.not_mem_nil, or_false] at hx
        rcases hx with rfl | rfl | rfl | rfl | rfl
        · exact own _ (by simp)
        · exact (hF.free _ o3).1
        all_goals exact own _ (by simp)
      · rintro s' ⟨g1, g2, g3⟩
        refine ⟨⟨_, _, g2, hh⟩, fr1 g1 g3 fun u hu hc => ?_⟩
        have := (hF.free u hu).2
        simp only [callOnly, Ring.scr, List.map_nil, List.map_cons, List.mem_cons, List.mem_append, List.not_mem_nil, or_false, not_or] at hc this
        grind
  | pop back o =>
    have hq : r.dq = true := by
      cases hq : r.dq with
      | true => rfl
      | false => exact absurd rfl ((hdq hq back (.const 0)).2 o)
    cases l with
    | nil => simp [RingOp.deque] at hs
    | cons v l =>
      simp only [RingOp.deque, Option.some.injEq] at hs
      subst hs
      obtain ⟨o1, o2, o3⟩ := hop
      have hsp : (v :: l) = (v :: l).dropLast ++ [(v :: l).getLast (by simp)] := (List.dropLast_concat_getLast (by simp)).symm
      rw [hsp] at R
      refine (Ring.call_pop hw hO o2 (hF.pop hq) o1 (hF.cell2 hq) ?_ R fun s1 R1 => Ring.popright_does hO hq R1).mono ?_
      · intro x hx
        simp only [List.mem_cons, List.not_mem_nil, or_false] at hx
        rcases hx with rfl | rfl | rfl | rfl | rfl
        · exact hF.own2 hq _ (by simp)
        · exact (hF.free _ o3).1
        all_goals exact hF.own2 hq _ (by simp)
      · rintro s' ⟨g1, g2, g3⟩
        refine ⟨⟨_, _, g2, fun _ => Ring.ix_lt ?_⟩, fr1 g1 g3 fun u hu hc => ?_⟩
        · have h1 := R.ht
          have h2 := R.hl
          rw [List.length_append, List.length_singleton] at h2
          omega
        · have := (hF.free u hu).2
          have this2 := hF.free2 hq u hu
          simp only [callOnly, Ring.scr, List.map_nil, List.map_cons, List.mem_cons, List.mem_append, List.not_mem_nil, or_false, not_or] at hc this this2
          grind
  | clear =>
    simp only [RingOp.deque, Option.some.injEq] at hs
    subst hs
    refine (Ring.clear_does hO R).mono ?_
    rintro s' ⟨g1, g2⟩
    exact ⟨⟨0, 0, g1, fun _ => hO.pos⟩, fr g2 fun u hu hc => (hF.free u hu).2 (by simp [Ring.scr, hc])⟩
  | length o lv =>
    simp only [RingOp.deque, Option.some.injEq] at hs
    subst hs
    obtain ⟨o1, o2, o3, o4⟩ := hop
    have e1 : runAsg [⟨o, .set, .var lv⟩] s = s.set o (BitVec.ofNat 32 l.length) := by
      show s.set o (s (lv + 348)) = _
      rw [o3, R.len]
    refine Does.asg (by simpa using o1) (by simpa using o2) ?_
    rw [e1]
    have ho : Only [o] s (s.set o (BitVec.ofNat 32 l.length)) := (Only.refl _ _).set (by simp) _
    exact ⟨⟨t, h, R.only ho fun x hx => by rw [List.mem_singleton.1 hx]; exact (hF.free _ o4).1, hh⟩, fr1 (set_eq _ _ _) ho fun u _ hu => List.mem_singleton.1 hu⟩
  | user gs =>
    simp only [RingOp.deque, Option.some.injEq] at hs
    subst hs
    obtain ⟨o1, o2⟩ := hop
    obtain ⟨i1, i2⟩ := runAsg_in gs hU fun g hg => (o1 g hg).2
    refine Does.asg (fun g hg => (o1 g hg).1) o2 ⟨⟨t, h, R.only i2 fun x hx => (hF.free x hx).1, hh⟩, i1⟩

/-- **C39 (EUDDeque, partial).** Any history of append, appendleft, pop, popleft, clear and reads of the length gives the results of a bounded double-ended queue that
drops from the other end when it is full.  Missing: append after an appendleft on a full deque, with no pop or clear in between (see `C39_counterexample`); pop and
popleft on an empty deque; iteration. -/
theorem C39_deque_partial {L : Layout} (hw : L.Wf) {r : Ring} (hO : r.Ok L) (hq : r.dq = true) {F : RingFns} {U : List Nat} (hF : F.Ok L r U) :
    ∀ (ops : List RingOp) (s : Mem) (a a' : List W × Bool × Mem), (∀ op ∈ ops, op.Ok L r F U) → RingIs r U s a → runOps (RingOp.deque r.cap) ops a = some a' →
      Does L (.seqs (ops.map (RingOp.stmt L r F))) s fun s' => RingIs r U s' a'
  | [], s, a, a', _, hI, h => by
    simp only [runOps, Option.some.injEq] at h
    subst h
    exact Does.skip hI
  | op :: ops, s, a, a', hop, hI, h => by
    simp only [runOps, Option.bind_eq_some_iff] at h
    obtain ⟨b, h1, h2⟩ := h
    refine Does.seq ((ringStep hw hO hF (hop op (by simp)) (by simp [hq]) hI h1).mono fun s' h' => ?_)
    exact C39_deque_partial hw hO hq hF ops s' b a' (fun op ho => hop op (by simp [ho])) h' h2

theorem queue_deque {cap : Nat} {op : RingOp} {l l1 : List W} {e e1 : Mem} (h : op.queue cap (l, e) = some (l1, e1)) :
    op.deque cap (l, false, e) = some (l1, false, e1) ∧ ∀ back x, op ≠ .appendleft back x ∧ ∀ o, op ≠ .pop back o := by
  cases op <;> cases l <;> simp only [RingOp.queue, Option.some.injEq, Prod.mk.injEq, reduceCtorEq] at h <;> obtain ⟨rfl, rfl⟩ := h <;> simp [RingOp.deque]

/-- **C38 (EUDQueue).** Any history of append, popleft, clear and reads of the length gives the results of a bounded queue that drops the oldest element when it is full. -/
theorem C38_queue {L : Layout} (hw : L.Wf) {r : Ring} (hO : r.Ok L) (hq : r.dq = false) {F : RingFns} {U : List Nat} (hF : F.Ok L r U) :
    ∀ (ops : List RingOp) (s : Mem) (l l' : List W) (e e' : Mem), (∀ op ∈ ops, op.Ok L r F U) → RingIs r U s (l, false, e) → runOps (RingOp.queue r.cap) ops (l, e) = some (l', e') →
      Does L (.seqs (ops.map (RingOp.stmt L r F))) s fun s' => RingIs r U s' (l', false, e')
  | [], s, l, l', e, e', _, hI, h => by
    simp only [runOps, Option.some.injEq, Prod.mk.injEq] at h
    obtain ⟨rfl, rfl⟩ := h
    exact Does.skip hI
  | op :: ops, s, l, l', e, e', hop, hI, h => by
    simp only [runOps, Option.bind_eq_some_iff] at h
    obtain ⟨⟨l1, e1⟩, h1, h2⟩ := h
    have h1' : op.deque r.cap (l, false, e) = some (l1, false, e1) ∧ ∀ back x, op ≠ .appendleft back x ∧ ∀ o, op ≠ .pop back o := queue_deque h1
    refine Does.seq ((ringStep hw hO hF (hop op (by simp)) (fun _ => h1'.2) hI h1'.1).mono fun s' h' => ?_)
    exact C38_queue hw hO hq hF ops s' l1 l' e1 e' (fun op ho => hop op (by simp [ho])) h' h2

/-- **C38 (`empty`).** The condition `length == 0` tells whether there are elements. -/
theorem C38_empty {L : Layout} {r : Ring} (hO : r.Ok L) {s : Mem} {t h : Nat} {l : List W} (R : r.Rep s t h l) : holdsAll s [cMem r.len .exactly 0] = l.isEmpty := by
  have h1 := hO.lt
  have h2 := R.hl
  rw [holdsAll_cons, holdsAll_nil, Bool.and_true, cMem_holds, R.len]
  simp only [compare]
  cases l with
  | nil => rfl
  | cons v l =>
    rw [List.length_cons] at h2 ⊢
    rw [List.isEmpty_cons, decide_eq_false_iff_not]
    intro h
    have := congrArg BitVec.toNat h
    simp at this
    omega

/-- A call with one constant argument, for any effect of the body. -/
theorem Ring.call_arg {L : Layout} (hw : L.Wf) {r : Ring} {fend nptr fstart back p : Nat} {w : W} {body : Stmt} {scr : List Nat}
    (hk : CallOk L nptr [] [(p, .const w)] scr) (hF : FuncCode L fstart fend nptr [] body) (hback : back < 2 ^ 32) (hn : ¬ r.own nptr) (hp : ¬ r.own p)
    {s : Mem} {t h : Nat} {l : List W} (R : r.Rep s t h l) {Q : Mem → Prop} (hb : ∀ s1, r.Rep s1 t h l → s1 p = w → Does L body s1 fun s' => Q s' ∧ Only scr s1 s') :
    Does L (.prim (CallRel L fend nptr back body [] [(p, .const w)])) s Q := by
  refine Does.mono (C31_does hw hk hF hback (Q := Q) ?_) ?_
  · intro s1 a1 o1
    have R1 := R.only o1 (fun y hy => by
      simp only [List.map_nil, List.nil_append, List.map_cons, List.mem_cons, List.not_mem_nil, or_false] at hy
      rcases hy with rfl | rfl
      · exact hn
      · exact hp)
    refine Wp.mono (hb s1 R1 (a1 (p, .const w) (by simp))).wp ?_
    rintro o s2 ⟨rfl, g1, g2⟩
    exact ⟨Or.inl rfl, g1, g2⟩
  · rintro s' ⟨⟨s2, g1, -, o2⟩, o⟩
    have : s' = s2 := funext fun x => o2 x (by simp)
    rw [this]
    exact g1

/-- **C39 (counterexample).** On a full deque whose head is at position 1, `appendleft(y)`, `append(z)`, `pop()` gives `y` instead of `z`, and `z` is stored in the
dword behind the array: appendleft (eudqueue.py:398-404) moves a head that has become 0 to the capacity, where append (eudqueue.py:306-315) takes it as it is. -/
theorem C39_counterexample {L : Layout} (hw : L.Wf) {r : Ring} (hO : r.Ok L) (hq : r.dq = true) {F : RingFns} {U : List Nat} (hF : F.Ok L r U) (hcap : 2 ≤ r.cap)
    (hD : L.cell (r.q + 72 * r.cap + 348)) (hDs : r.q + 72 * r.cap + 348 ∉ r.steer ++ [F.nq, F.rq + 4, F.rq + 344, F.rq + 348]) (hDd : ¬ r.data (r.q + 72 * r.cap + 348))
    {b1 b2 b3 o : Nat} {y z : W} (h1 : (RingOp.appendleft b1 (.const y)).Ok L r F U) (h2 : b2 < 2 ^ 32) (h2' : CallOk L F.na [] [(r.ta + 348, .const z)] ((r.q + 72 * r.cap + 348) :: r.steer))
    (h3 : (RingOp.pop b3 o).Ok L r F U) (hDo : r.q + 72 * r.cap + 348 ≠ o) {s : Mem} {l : List W} (R : r.Rep s 1 1 l) (hl : l.length = r.cap) :
    Does L (.seqs ([.appendleft b1 (.const y), .append b2 (.const z), .pop b3 o].map (RingOp.stmt L r F))) s fun s' => s' o = y ∧ s' (r.q + 72 * r.cap + 348) = z := by
  have hown := hF.own
  have hown2 := hF.own2 hq
  obtain ⟨p1, p2, p3⟩ := h1
  refine Does.seq (Ring.call_arg hw p2 (hF.appendleft hq) p1 (hown2 _ (by simp)) (Ring.tl_own hO hq) R (Q := fun s' => Does L (.seqs ([RingOp.append b2 (.const z), RingOp.pop b3 o].map (RingOp.stmt L r F))) s'
    fun s' => s' o = y ∧ s' (r.q + 72 * r.cap + 348) = z) ?_)
  intro s1 R1 v1
  refine (Ring.appendleft_does hO hq R1).mono ?_
  rintro s2 ⟨⟨h', e', R2⟩, o2⟩
  refine ⟨?_, o2⟩
  rw [if_neg (by omega), if_pos (by omega), show 1 + r.cap - 1 = r.cap by omega] at e'
  subst e'
  rw [v1, show r.bk 1 = 0 from rfl] at R2
  obtain ⟨l1, hl1, hlen⟩ : ∃ l1, Ring.pushleft r.cap l y = y :: l1 ∧ (y :: l1).length = r.cap := by
    have : r.cap = (r.cap - 1) + 1 := by omega
    refine ⟨l.take (r.cap - 1), ?_, ?_⟩
    · unfold Ring.pushleft
      rw [this, List.take_succ_cons]
      simp
    · simp; omega
  rw [hl1] at R2
  refine Does.seq (Ring.call_arg hw h2' hF.append h2 (hown _ (by simp)) (Ring.ta_own hO) R2 (Q := fun s' => Does L (.seqs ([RingOp.pop b3 o].map (RingOp.stmt L r F))) s'
    fun s' => s' o = y ∧ s' (r.q + 72 * r.cap + 348) = z) ?_)
  intro s3 R3 v3
  have hDs' := hDs
  simp only [List.mem_append, List.mem_cons, List.not_mem_nil, or_false, not_or] at hDs'
  refine (Ring.append_beyond hO hcap R3 hlen hD hDs'.1 hDd).mono ?_
  rintro s4 ⟨R4, v4, o4⟩
  refine ⟨?_, o4⟩
  obtain ⟨q1, q2, q3⟩ := h3
  refine Does.seq ((Ring.call_pop hw hO q2 (hF.pop hq) q1 (hF.cell2 hq) ?_ R4 fun s1 R1 => Ring.popright_does hO hq R1).mono ?_)
  · intro x hx
    simp only [List.mem_cons, List.not_mem_nil, or_false] at hx
    rcases hx with rfl | rfl | rfl | rfl | rfl
    · exact hF.own2 hq _ (by simp)
    · exact (hF.free _ q3).1
    all_goals exact hF.own2 hq _ (by simp)
  · rintro s5 ⟨e5, -, o5⟩
    refine Does.skip ⟨e5, ?_⟩
    rw [o5, v4, v3]
    simp only [callOnly, List.map_nil, List.map_cons, List.mem_cons, List.mem_append, List.not_mem_nil, or_false, not_or]
    grind

end Eud.SC
