import Verif.Lib.MulDivFn
import Verif.Lib.ByteBlock
/-
Printing numbers and strings into memory: string/eudprint.py `f_dbstr_adddw`, `f_dbstr_addptr`, `f_dbstr_addstr` (C57).
-/

namespace Eud.SC

/-! ## Specification -/

/-- The bytes `l` are written from address `q` on. -/
def putBytes (m : Mem) (q : Nat) : List (BitVec 8) → Mem
  | [] => m
  | b :: l => putBytes (putByte m q b) (nextB q) l

/-- The bytes of an ASCII string. -/
def ascii (l : List Char) : List (BitVec 8) := l.map fun c => BitVec.ofNat 8 c.toNat

/-- The decimal numeral of `n`, without leading zeros. -/
def decimal (n : Nat) : List (BitVec 8) := ascii n.repr.toList

/-- The upper case hexadecimal digit `d`. -/
def hexDigit (d : Nat) : BitVec 8 := ascii "0123456789ABCDEF".toList |>.getD d 0

/-- The hexadecimal numeral of `n` with 8 digits. -/
def hex8 (n : Nat) : List (BitVec 8) := (List.range 8).map fun k => hexDigit (n / 16 ^ (7 - k) % 16)

theorem putBytes_append : ∀ (l l' : List (BitVec 8)) (m : Mem) (q : Nat), q < 2 ^ 32 → putBytes m q (l ++ l') = putBytes (putBytes m q l) (posB q l.length) l'
  | [], l', m, q, h => by simp [putBytes, posB_zero h]
  | b :: l, l', m, q, h => by
    simp only [List.cons_append, putBytes, putBytes_append l l' _ _ (nextB_lt q), List.length_cons, posB_succ]

theorem putBytes_ne : ∀ {l : List (BitVec 8)} {m : Mem} {q y : Nat}, q < 2 ^ 32 → (∀ k < l.length, y ≠ posB q k / 4 * 4) → putBytes m q l y = m y
  | [], _, _, _, _, _ => rfl
  | b :: l, m, q, y, hq, h => by
    rw [putBytes, putBytes_ne (nextB_lt q) (fun k hk => ?_), putByte_ne ?_]
    · have := h 0 (by simp); rwa [posB_zero hq] at this
    · rw [posB_succ]; exact h (k + 1) (by simpa using hk)

/-- What is at a dword depends on what was there. -/
theorem putBytes_congr : ∀ {l : List (BitVec 8)} {m m' : Mem} {q y : Nat}, m y = m' y → putBytes m q l y = putBytes m' q l y
  | [], _, _, _, _, h => h
  | b :: l, m, m', q, y, h => by
    rw [putBytes, putBytes]
    refine putBytes_congr ?_
    unfold putByte
    simp only [get_set]
    split
    · rename_i e; rw [← e, h]
    · exact h

/-- The bytes are there, and the others are as before. -/
theorem byteAt_putBytes : ∀ {l : List (BitVec 8)} {m : Mem} {q : Nat}, q < 2 ^ 32 → l.length ≤ 2 ^ 32 →
    (∀ k (hk : k < l.length), byteAt (putBytes m q l) (posB q k) = l[k]) ∧ ∀ x, (∀ k < l.length, x ≠ posB q k) → byteAt (putBytes m q l) x = byteAt m x
  | [], _, _, _, _ => ⟨fun k hk => absurd hk (by simp), fun _ _ => rfl⟩
  | b :: l, m, q, hq, hl => by
    simp only [List.length_cons] at hl
    obtain ⟨h1, h2⟩ := byteAt_putBytes (l := l) (m := putByte m q b) (nextB_lt q) (by omega)
    refine ⟨fun k hk => ?_, fun x hx => ?_⟩
    · cases k with
      | zero =>
        rw [putBytes, posB_zero hq, h2 q (fun k hk e => ?_), byteAt_put, if_pos rfl]; rfl
        rw [posB_succ] at e
        have := posB_inj (p := q) (i := 0) (j := k + 1) (by omega) (by simp only [List.length_cons] at *; omega) (by rw [posB_zero hq]; exact e)
        omega
      | succ k => rw [putBytes, ← posB_succ, h1 k (by simpa using hk)]; rfl
    · rw [putBytes, h2 x (fun k hk => by rw [posB_succ]; exact hx (k + 1) (by simpa using hk)), byteAt_put, if_neg]
      have := hx 0 (by simp); rwa [posB_zero hq] at this

theorem Src.valM_const (s : Mem) (x : W) : Src.valM s (.const x) = x := rfl

/-! ## Subroutines that end with a trigger -/

/-- Triggers like those of eudprint.py `_add_str`, `_add_dw`, `_add_ptr`: the caller assigns `gs`, one of which sets the next pointer of the last trigger, and jumps to the body; the last trigger at `fe` has the
actions `as` and goes on where its next pointer says. -/
def SubRel (L : Layout) (fe back : Nat) (gs : List Asg) (body : Stmt) (as : List PA) (s s' : Mem) : Prop :=
  ∃ s2, Exec L (.asg gs) s .nrm (runAsg gs s) ∧ Exec L body (runAsg gs s) .nrm s2 ∧ ActsOk L as s2 ∧ s' = runPA as s2 ∧ s' (fe + 4) = BitVec.ofNat 32 back

theorem sub_code {L : Layout} (hw : L.Wf) {fs fe back e : Nat} {gs : List Asg} {body : Stmt} {as : List PA} (hg : ∃ r b k, Code L r b k (.asg gs) e fs) (hb : ∃ r b k, Code L r b k body fs fe)
    (he : (⟨fe, ⟨[], as.map PA.a⟩, none, false⟩ : SBlk) ∈ L.P.blks) (hp : PlacedA (fe + 328) as) (h4 : L.cell (fe + 4)) (hk : back < 2 ^ 32) (r b k : Nat) :
    Code L r b k (.prim (SubRel L fe back gs body as)) e back := by
  apply Code.prim
  rintro s s' ⟨s2, h1, h2, h3, rfl, h5⟩
  obtain ⟨_, _, _, hg⟩ := hg
  obtain ⟨_, _, _, hb⟩ := hb
  have c1 : L.Runs s e _ fs := C25_structured hw h1 hg
  have c2 : L.Runs _ fs s2 fe := C25_structured hw h2 hb
  have c3 := Layout.Runs.dyn (cs := []) hw he h4.2 trivial hp (s := s2) (by simp) (fun _ => h3)
  rw [if_pos (holdsAll_nil s2), h5, BitVec.toNat_ofNat, Nat.mod_eq_of_lt hk] at c3
  exact (c1.trans c2).trans c3

theorem sub_does {L : Layout} {fe back : Nat} {gs : List Asg} {body : Stmt} {as : List PA} {s : Mem} {Q : Mem → Prop} (hc : ∀ g ∈ gs, L.cell g.a) (hv : ∀ g ∈ gs, ∀ v, g.src = .var v → v ∈ L.P.vars)
    (h : Does L body (runAsg gs s) fun s2 => ActsOk L as s2 ∧ runPA as s2 (fe + 4) = BitVec.ofNat 32 back ∧ Q (runPA as s2)) : Does L (.prim (SubRel L fe back gs body as)) s Q := by
  obtain ⟨s2, h1, h2, h3, h4⟩ := h
  exact Does.prim ⟨s2, .asg hc hv, h1, h2, rfl, h3⟩ h4

/-- An action at `p` that adds, whose destination and value are looked up when it runs. -/
def aAddHole (p : Nat) : PA := ⟨⟨none, .add, none, some 0xFFFFFFFF⟩, some p⟩

theorem aAddHole_spec {L : Layout} {p d : Nat} {s : Mem} (h : s (p + 16) = epd d) (hd : EpdOK d) (hc : L.cell d) {ps : List PA} (hr : ActsOk L ps (s.set d (s d + s (p + 20)))) :
    (aAddHole p).run s = s.set d (s d + s (p + 20)) ∧ ActsOk L (aAddHole p :: ps) s := by
  have h2 : (aAddHole p).a.res s ((aAddHole p).pos.getD 0) = ⟨.mem d, .add, s (p + 20), 0xFFFFFFFF⟩ := by
    simp only [aAddHole, SAct.res, Option.getD_some, Option.getD_none, h, dstOf_epd hd]
  have e : (aAddHole p).run s = s.set d (s d + s (p + 20)) := by
    simp only [PA.run, h2, Act.apply, Dst.addr, modify_full, arith]
  refine ⟨e, ?_, ?_, ?_⟩
  · intro _
    simp only [aAddHole, Option.getD_some, h, dstOf_epd hd, Option.isSome_some]
  · rw [h2]; exact hc
  · rw [e]; exact hr

/-! ## Writing with `bw1` -/

/-- Scratch of divisions may change. -/
theorem BRep.moveD {L : Layout} {G : BCfg} {br : Nat → Nat} (hG : G.Ok L br) {cp : W} {rp wp : Nat → Nat} {s s' : Mem} (h : BRep G cp ⟨rp, wp, s⟩ s) (hs : ∀ x, G.Int x → x ∉ G.D.own → s' x = s x) :
    BRep G cp ⟨rp, wp, s'⟩ s' := by
  have hd : ∀ x ∈ G.D.own, x ∈ G.own .com := by
    intro x hx; simp only [Div4.own, BCfg.own, List.mem_cons, List.not_mem_nil, or_false] at hx ⊢; grind
  have k : ∀ b, G.ok b → b ≠ .com → ∀ x ∈ G.own b, s' x = s x := fun b hb hn x hx => hs x ⟨b, hb, hx⟩ fun hm => hG.sep b .com hb trivial hn x hx (hd x hm)
  have nd := hG.nd .com trivial
  have kc : ∀ x ∈ [G.cpc + 352, G.rend + 348, cpAddr, G.cpc + 348], s' x = s x := by
    intro x hx
    refine hs x ⟨.com, trivial, ?_⟩ ?_
    · simp only [BCfg.own, List.mem_cons, List.not_mem_nil, or_false] at hx ⊢; grind
    · simp only [BCfg.own, List.nodup_cons, List.mem_cons, List.not_mem_nil, or_false, not_or] at nd
      simp only [Div4.own, List.mem_cons, List.not_mem_nil, or_false] at hx ⊢
      grind
  refine ⟨fun i hi => ?_, fun i hi => ?_, ?_, fun _ _ => rfl⟩
  · obtain ⟨⟨a1, a2⟩, a3⟩ := h.rd i hi
    have e := k (.rd i) hi (by simp)
    exact ⟨⟨by rw [e _ (by simp [BCfg.own]), a1], by rw [e _ (by simp [BCfg.own]), a2]⟩, a3⟩
  · obtain ⟨⟨a1, a2, a3⟩, a4, a5⟩ := h.wr i hi
    have e := k (.wr i) hi (by simp)
    exact ⟨⟨by rw [e _ (by simp [BCfg.own]), a1], by rw [e _ (by simp [BCfg.own]), a2], by rw [e _ (by simp [BCfg.own]), a3]⟩, a4, by rw [e _ (by simp [BCfg.own]), a5]⟩
  · obtain ⟨a1, a2, a3, a4⟩ := h.com
    exact ⟨by rw [kc _ (by simp), a1], by rw [kc _ (by simp), a2], by rw [kc _ (by simp), a3], by rw [kc _ (by simp), a4]⟩

/-- The writer `w` has written the bytes `l` from its position on; of the other dwords of the program those in `S` may have changed. -/
def Wrote (G : BCfg) (cp : W) (w : Nat) (S : Nat → Prop) (rp wp : Nat → Nat) (s s' : Mem) (l : List (BitVec 8)) : Prop :=
  BRep G cp ⟨rp, upd wp w (posB (wp w) l.length), s'⟩ s' ∧ ∀ y, ¬ G.Int y → ¬ S y → s' y = putBytes s (wp w) l y

/-- There is room for `n` bytes from `q` on, outside of `S`. -/
def Room (L : Layout) (G : BCfg) (S : Nat → Prop) (q n : Nat) : Prop := ∀ k < n, EpdOK (posB q k / 4 * 4) ∧ L.cell (posB q k / 4 * 4) ∧ ¬ G.Int (posB q k / 4 * 4) ∧ ¬ S (posB q k / 4 * 4)

section
variable {L : Layout} {G : BCfg} {br : Nat → Nat} {cp : W} {w : Nat} {S : Nat → Prop} {rp wp : Nat → Nat} {s s' : Mem}

theorem upd_upd (f : Nat → Nat) (i p q : Nat) : upd (upd f i p) i q = upd f i q := by funext k; unfold upd; split <;> rfl
theorem upd_id (f : Nat → Nat) (i : Nat) : upd f i (f i) = f := by funext k; unfold upd; split <;> simp_all
theorem posB_add (q i j : Nat) : posB (posB q i) j = posB q (i + j) := by unfold posB; omega

theorem Wrote.comp {s1 s2 : Mem} {rp0 : Nat → Nat} {l1 l2 : List (BitVec 8)} (hq : wp w < 2 ^ 32) (h1 : Wrote G cp w S rp0 wp s s1 l1) (h2 : Wrote G cp w S rp (upd wp w (posB (wp w) l1.length)) s1 s2 l2) :
    Wrote G cp w S rp wp s s2 (l1 ++ l2) := by
  refine ⟨?_, fun y hy hs => ?_⟩
  · have := h2.1
    rw [upd_upd, BHist.upd_self, posB_add] at this
    rwa [List.length_append]
  · rw [h2.2 y hy hs, BHist.upd_self, putBytes_append _ _ _ _ hq]
    exact putBytes_congr (h1.2 y hy hs)

theorem Wrote.mono {S' : Nat → Prop} {l : List (BitVec 8)} (h : Wrote G cp w S rp wp s s' l) (hS : ∀ y, S y → S' y) : Wrote G cp w S' rp wp s s' l :=
  ⟨h.1, fun y hy hn => h.2 y hy fun hs => hn (hS y hs)⟩

/-- Scratch changes. -/
theorem Wrote.loc (hG : G.Ok L br) {s1 : Mem} {l : List (BitVec 8)} {T : List Nat} (h : Wrote G cp w S rp wp s s1 l) (ho : Only T s1 s') (hT : ∀ y ∈ T, S y) (hi : ∀ y ∈ T, G.Int y → y ∈ G.D.own) :
    Wrote G cp w S rp wp s s' l := by
  refine ⟨h.1.moveD hG fun x hx hn => ho x fun hm => hn (hi x hm hx), fun y hy hn => ?_⟩
  rw [ho y fun hm => hn (hT y hm), h.2 y hy hn]

theorem Wrote.refl (h : BRep G cp ⟨rp, wp, s⟩ s) (hq : wp w < 2 ^ 32) : Wrote G cp w S rp wp s s [] := by
  refine ⟨?_, fun _ _ _ => rfl⟩
  rw [List.length_nil, posB_zero hq, upd_id]
  exact h

/-- A dword that is not written keeps its value. -/
theorem Wrote.keep {l : List (BitVec 8)} {n : Nat} (h : Wrote G cp w S rp wp s s' l) (hq : wp w < 2 ^ 32) (hl : l.length ≤ n) {S' : Nat → Prop} (hr : Room L G S' (wp w) n) {y : Nat} (hy : ¬ G.Int y) (hn : ¬ S y) (hS : S' y) :
    s' y = s y := by
  rw [h.2 y hy hn]
  exact putBytes_ne hq fun k hk e => (hr k (by omega)).2.2.2 (e ▸ hS)

/-- Writing the low byte of a variable. -/
theorem wr_does (hG : G.Ok L br) (hwi : w < G.nw) (h : BRep G cp ⟨rp, wp, s⟩ s) {x : Src} (hx : SrcB L G x) {n : Nat} (hn : n < 2 ^ 32) (hr : Room L G S (wp w) 1) :
    Does L ((BOp.writeV w x).stmt L G n) s fun s' => Wrote G cp w (fun _ => False) rp wp s s' [(x.valM s).setWidth 8] := by
  have hq : wp w < 2 ^ 32 := (h.wr w hwi).2.1
  obtain ⟨r1, r2, r3, -⟩ := hr 0 (by decide)
  rw [posB_zero hq] at r1 r2 r3
  refine (C37_step hG h hn (.writeV w x) ⟨hwi, hx, r1, r2, r3⟩).mono fun s' h' => ⟨?_, fun y hy _ => h'.vis y hy⟩
  have := h'.here
  simp only [BOp.spec] at this
  rw [← posB_zero hq, posB_next] at this
  exact this

/-- Writing a constant byte. -/
theorem wrC_does (hG : G.Ok L br) (hwi : w < G.nw) (h : BRep G cp ⟨rp, wp, s⟩ s) {b n : Nat} (hn : n < 2 ^ 32) (hr : Room L G S (wp w) 1) :
    Does L ((BOp.writeC w b).stmt L G n) s fun s' => Wrote G cp w (fun _ => False) rp wp s s' [BitVec.ofNat 8 b] := by
  have hq : wp w < 2 ^ 32 := (h.wr w hwi).2.1
  obtain ⟨r1, r2, r3, -⟩ := hr 0 (by decide)
  rw [posB_zero hq] at r1 r2 r3
  refine (C37_step hG h hn (.writeC w b) ⟨hwi, r1, r2, r3⟩).mono fun s' h' => ⟨?_, fun y hy _ => h'.vis y hy⟩
  have := h'.here
  simp only [BOp.spec] at this
  rw [← posB_zero hq, posB_next] at this
  exact this

theorem Room.at {q j m n : Nat} (h : Room L G S q n) (hj : j + m ≤ n) : Room L G S (posB q j) m := fun k hk => by
  rw [posB_add]; exact h (j + k) (by omega)

theorem Room.le {q m n : Nat} (h : Room L G S q n) (hj : m ≤ n) : Room L G S q m := fun k hk => h k (by omega)

end

/-! ## Decimal numbers -/

/-- eudprint.py:93-143 `_add_dw`: the variables `n 0`, ..., `n 10` that `_number` stands for one after the other, the digits `c i`, the last trigger `fe`, the function for the division by 10, where divisions and
writes go on, the writer `bw1`. -/
structure DecPr where
  n : Nat → Nat
  c : Nat → Nat
  fe : Nat
  D : Div4
  bd : Nat → Nat
  bw : Nat → Nat
  w : Nat

namespace DecPr
variable (P : DecPr)

/-- eudprint.py:108-109: `_number, ch[i] = f_div(_number, 10)`, `ch[i] += b"0"[0]`. -/
def dgt (L : Layout) (i : Nat) : Stmt :=
  .seq (.prim (CallRel L P.D.fe P.D.np (P.bd i) (divFn P.D.a P.D.q P.D.a 10) [(P.D.q, P.n (i + 1) + 348), (P.D.a, P.c i + 348)] [(P.D.a + 348, .var (P.n i))])) (.asg [⟨P.c i + 348, .add, .const 48⟩])

/-- eudprint.py:117-118: `bw1.writebyte(ch[i])`, `SetMemory(end + 348, Add, 1)`. -/
def wrt (L : Layout) (G : BCfg) (i : Nat) : Stmt := .seq ((BOp.writeV P.w (.var (P.c i))).stmt L G (P.bw i)) (.trig [] [aMem (P.fe + 348) .add 1])

/-- eudprint.py:107-118: from the division number `9 - k` on up to the output of that digit.  `EUDJumpIf(_number == 0, skipper[i])` skips what belongs to the higher digits. -/
def lev (L : Layout) (G : BCfg) : Nat → Stmt
  | 0 => .seq (P.dgt L 9) (P.wrt L G 9)
  | k + 1 => .seq (P.dgt L (8 - k)) (.seq (.ite .skip [cMem (P.n (9 - k) + 348) .exactly 0] .skip (lev L G k)) (P.wrt L G (8 - k)))

/-- eudprint.py:120-126: the last trigger. -/
def fin : List PA := [aAddHole (P.fe + 328), aMem (P.fe + 348) .set 0]

/-- eudprint.py:131-143: the use of the subroutine, for the variable `dst`. -/
def sub (L : Layout) (G : BCfg) (dst : Nat) (number : Src) (back : Nat) : Stmt :=
  .prim (SubRel L P.fe back [⟨P.fe + 4, .set, .const (BitVec.ofNat 32 back)⟩, ⟨P.fe + 344, .set, .const (epd (dst + 348))⟩, ⟨P.n 0 + 348, .set, number⟩] (P.lev L G 9) P.fin)

/-- What changes from division `9 - k` on. -/
def scr (k y : Nat) : Prop := y = P.fe + 348 ∨ y ∈ P.D.own ∨ ∃ j, 9 ≤ j + k ∧ j < 10 ∧ (y = P.c j + 348 ∨ y = P.n (j + 1) + 348)

/-- All dwords of the subroutine. -/
def all (y : Nat) : Prop := y ∈ [P.fe + 4, P.fe + 344, P.fe + 348] ∨ y ∈ P.D.own ∨ (∃ j < 10, y = P.c j + 348) ∨ ∃ j < 11, y = P.n j + 348

structure Ok (L : Layout) (G : BCfg) : Prop where
  w : P.w < G.nw
  vn : ∀ i < 11, P.n i ∈ L.P.vars
  vc : ∀ i < 10, P.c i ∈ L.P.vars
  cf : L.cell (P.fe + 4) ∧ L.cell (P.fe + 344) ∧ L.cell (P.fe + 348)
  lt : ∀ i < 10, P.bd i < 2 ^ 32 ∧ P.bw i < 2 ^ 32
  fc : FuncCode L P.D.fs P.D.fe P.D.np [P.D.q, P.D.a] (divFn P.D.a P.D.q P.D.a 10)
  da : L.cell (P.D.a + 348) ∧ L.cell (P.D.q + 348) ∧ P.D.a ≠ P.D.q
  dk : ∀ i < 10, CallOk L P.D.np [(P.D.q, P.n (i + 1) + 348), (P.D.a, P.c i + 348)] [(P.D.a + 348, .var (P.n i))] [P.D.q + 348, P.D.a + 348]
  int : ∀ y, P.all y → G.Int y → y ∈ G.D.own
  iv : (∀ i < 10, ¬ G.Int (P.c i + 348)) ∧ (∀ i < 11, ¬ G.Int (P.n i + 348)) ∧ ¬ G.Int (P.fe + 4) ∧ ¬ G.Int (P.fe + 344) ∧ ¬ G.Int (P.fe + 348)
  cc : ∀ i < 10, ∀ j < 10, i ≠ j → P.c i ≠ P.c j
  cn : ∀ i < 10, ∀ j < 11, P.c i ≠ P.n j
  nn : ∀ i < 11, ∀ j < 11, i ≠ j → P.n i ≠ P.n j
  fo : ∀ y ∈ [P.fe + 4, P.fe + 344, P.fe + 348], y ∉ P.D.own ∧ (∀ i < 10, y ≠ P.c i + 348) ∧ ∀ i < 11, y ≠ P.n i + 348
  dn : ∀ y ∈ P.D.own, (∀ i < 10, y ≠ P.c i + 348) ∧ ∀ i < 11, y ≠ P.n i + 348

variable {P} {L : Layout} {G : BCfg} {br : Nat → Nat} {cp : W} {rp wp : Nat → Nat} {s s' : Mem}

theorem scr_mono {k y : Nat} (h : P.scr k y) : P.scr (k + 1) y := by
  rcases h with h | h | ⟨j, h1, h2, h3⟩
  · exact .inl h
  · exact .inr (.inl h)
  · exact .inr (.inr ⟨j, by omega, h2, h3⟩)

theorem scr_all {k y : Nat} (h : P.scr k y) : P.all y := by
  rcases h with rfl | h | ⟨j, h1, h2, h3⟩
  · exact .inl (by simp)
  · exact .inr (.inl h)
  · rcases h3 with rfl | rfl
    · exact .inr (.inr (.inl ⟨j, h2, rfl⟩))
    · exact .inr (.inr (.inr ⟨j + 1, by omega, rfl⟩))

theorem dgt_does (hw : L.Wf) (hP : P.Ok L G) {i : Nat} (hi : i < 10) (s : Mem) : Does L (P.dgt L i) s fun s' =>
    (s' (P.n (i + 1) + 348)).toNat = (s (P.n i + 348)).toNat / 10 ∧ (s' (P.c i + 348)).toNat = (s (P.n i + 348)).toNat % 10 + 48 ∧ Only ((P.n (i + 1) + 348) :: (P.c i + 348) :: P.D.own) s s' := by
  have ci : L.cell (P.c i + 348) := cell_val hw (hP.vc i hi)
  have hx := (s (P.n i + 348)).isLt
  refine Does.seq ((C21_number hw hP.da.1 (fun h => absurd h (by decide)) hP.da.2.1 hP.da.1 hP.da.2.2 (Ne.symm hP.da.2.2) (by simp) (hP.dk i hi) hP.fc (hP.lt i hi).1 s).mono ?_)
  rintro s1 ⟨h1, h2, h3⟩
  simp only [quotE, remE, Src.valM, if_neg (show ¬ (10 = 0) by decide)] at h1 h2
  refine Does.asg (by simpa using ci) (by simp) ?_
  have ne : P.n (i + 1) + 348 ≠ P.c i + 348 := fun e => hP.cn i hi (i + 1) (by omega) (by omega)
  simp only [runAsg_cons, runAsg_nil, Src.valM, arith]
  refine ⟨?_, ?_, ?_⟩
  · rw [set_ne ne, h1, BitVec.toNat_ofNat, Nat.mod_eq_of_lt (by omega)]
  · rw [set_eq, h2, BitVec.toNat_add, BitVec.toNat_ofNat, show (48 : W).toNat = 48 from rfl]; omega
  · refine Only.set (h3.mono fun y hy => ?_) (by simp) _
    simp only [callOnly, Div4.own, List.map_cons, List.map_nil, List.cons_append, List.nil_append, List.mem_cons, List.not_mem_nil, or_false] at hy ⊢
    grind

theorem digitChar_toNat : ∀ d < 10, (Nat.digitChar d).toNat = d + 48 := by decide

theorem decimal_step (n : Nat) : decimal n = (if n / 10 = 0 then [] else decimal (n / 10)) ++ [BitVec.ofNat 8 (n % 10 + 48)] := by
  have h := Nat.toDigits_eq_if (b := 10) (n := n) (by decide)
  unfold decimal ascii
  rw [Nat.toList_repr, Nat.toList_repr, h]
  by_cases hn : n < 10
  · rw [if_pos hn, if_pos (by omega), List.map_singleton, digitChar_toNat n hn, Nat.mod_eq_of_lt hn]; rfl
  · rw [if_neg hn, if_neg (by omega), List.map_append, List.map_singleton, digitChar_toNat _ (by omega)]

/-- One digit is written. -/
theorem wrt_does (hG : G.Ok L br) (hP : P.Ok L G) {i : Nat} (hi : i < 10) (h : BRep G cp ⟨rp, wp, s⟩ s) (hr : Room L G P.all (wp P.w) 1) {d : Nat} (hd : (s (P.c i + 348)).toNat = d) :
    Does L (P.wrt L G i) s fun s' => Wrote G cp P.w (fun y => y = P.fe + 348) rp wp s s' [BitVec.ofNat 8 d] ∧ s' (P.fe + 348) = s (P.fe + 348) + 1 := by
  refine Does.seq ((wr_does (w := P.w) hG hP.w h (x := .var (P.c i)) (fun v hv => by cases hv; exact ⟨hP.vc i hi, hP.iv.1 i hi⟩) (hP.lt i hi).2 hr).mono ?_)
  intro s1 h1
  have hq := (h.wr _ hP.w).2.1
  have e : s1 (P.fe + 348) = s (P.fe + 348) := h1.keep (n := 1) hq (by simp) hr hP.iv.2.2.2.2 (fun h => h) (.inl (by simp))
  have ed : (Src.valM s (.var (P.c i))).setWidth 8 = BitVec.ofNat 8 d := by
    apply BitVec.eq_of_toNat_eq
    rw [BitVec.toNat_setWidth, BitVec.toNat_ofNat, ← hd]; rfl
  rw [ed] at h1
  refine Does.acts (actsOk_mem hP.cf.2.2 trivial) ?_
  simp only [runPA_cons, runPA_nil, aMem_run, arith]
  refine ⟨(h1.mono (S' := fun y => y = P.fe + 348) fun y hy => hy.elim).loc hG (T := [P.fe + 348]) ((Only.refl _ _).set (by simp) _) (by simp) ?_, by rw [set_eq, e]⟩
  intro y hy hI
  rw [List.mem_singleton.1 hy] at hI
  exact absurd hI hP.iv.2.2.2.2

/-- The output of a digit, after what belongs to the higher digits. -/
theorem outp (hG : G.Ok L br) (hP : P.Ok L G) {i K N : Nat} (hi : i + K = 9) {s s1 s2 : Mem} {pre : List (BitVec 8)} (h : BRep G cp ⟨rp, wp, s⟩ s)
    (o1 : Only ((P.n (i + 1) + 348) :: (P.c i + 348) :: P.D.own) s s1) (hc : (s1 (P.c i + 348)).toNat = N % 10 + 48)
    (hm : Wrote G cp P.w (fun y => P.scr K y ∧ y ≠ P.c i + 348) rp wp s1 s2 pre) (hn : s2 (P.fe + 348) = s1 (P.fe + 348) + BitVec.ofNat 32 pre.length)
    (hr : Room L G P.all (wp P.w) (pre.length + 1)) :
    Does L (P.wrt L G i) s2 fun s' => Wrote G cp P.w (P.scr K) rp wp s s' (pre ++ [BitVec.ofNat 8 (N % 10 + 48)]) ∧ s' (P.fe + 348) = s (P.fe + 348) + BitVec.ofNat 32 (pre.length + 1) := by
  have hq := (h.wr _ hP.w).2.1
  have hci : P.all (P.c i + 348) := .inr (.inr (.inl ⟨i, by omega, rfl⟩))
  have e2 : s2 (P.c i + 348) = s1 (P.c i + 348) := hm.keep hq (Nat.le_succ _) hr (hP.iv.1 i (by omega)) (fun h => h.2 rfl) hci
  refine (wrt_does hG hP (by omega : i < 10) hm.1 (by rw [BHist.upd_self]; exact hr.at (Nat.le_refl _)) (by rw [e2, hc])).mono ?_
  rintro s' ⟨g1, g2⟩
  have w1 : Wrote G cp P.w (P.scr K) rp wp s s1 [] := by
    refine (Wrote.refl h hq).loc hG o1 (fun y hy => ?_) (fun y hy => ?_)
    · simp only [List.mem_cons] at hy
      rcases hy with rfl | rfl | hy
      · exact .inr (.inr ⟨i, by omega, by omega, .inr rfl⟩)
      · exact .inr (.inr ⟨i, by omega, by omega, .inl rfl⟩)
      · exact .inr (.inl hy)
    · refine hP.int y ?_
      simp only [List.mem_cons] at hy
      rcases hy with rfl | rfl | hy
      · exact .inr (.inr (.inr ⟨i + 1, by omega, rfl⟩))
      · exact hci
      · exact .inr (.inl hy)
  have w2 : Wrote G cp P.w (P.scr K) rp wp s s2 pre := by
    have := Wrote.comp hq w1 (l2 := pre) (s2 := s2) (by
      rw [List.length_nil, posB_zero hq, upd_id]
      exact hm.mono fun y hy => hy.1)
    exact this
  refine ⟨Wrote.comp hq w2 (g1.mono fun y hy => .inl hy), ?_⟩
  rw [g2, hn, o1 _ ?_, BitVec.ofNat_add, BitVec.add_assoc]
  · rfl
  · have := hP.fo (P.fe + 348) (by simp)
    simp only [List.mem_cons, not_or]
    exact ⟨this.2.2 _ (by omega), this.2.1 _ (by omega), this.1⟩

theorem decimal_len (N : Nat) : (decimal N).length = (if N / 10 = 0 then [] else decimal (N / 10)).length + 1 := by
  rw [decimal_step, List.length_append]; rfl

/-- From division `9 - k` on, the whole numeral is written. -/
theorem lev_does (hG : G.Ok L br) (hP : P.Ok L G) : ∀ (k : Nat) {wp : Nat → Nat} {s : Mem}, k ≤ 9 → BRep G cp ⟨rp, wp, s⟩ s → (s (P.n (9 - k) + 348)).toNat < 10 ^ (k + 1) → Room L G P.all (wp P.w) (decimal (s (P.n (9 - k) + 348)).toNat).length →
    Does L (P.lev L G k) s fun s' => Wrote G cp P.w (P.scr k) rp wp s s' (decimal (s (P.n (9 - k) + 348)).toNat) ∧
      s' (P.fe + 348) = s (P.fe + 348) + BitVec.ofNat 32 (decimal (s (P.n (9 - k) + 348)).toNat).length
  | 0, wp, s, _, h, hN, hr => by
    refine Does.seq ((dgt_does hG.wf hP (i := 9) (by decide) s).mono ?_)
    rintro s1 ⟨a1, a2, a3⟩
    have hq := (h.wr _ hP.w).2.1
    have hb : BRep G cp ⟨rp, wp, s1⟩ s1 := by
      refine h.moveD hG fun x hx hn => a3 x fun hm => hn (hP.int x ?_ hx)
      simp only [List.mem_cons] at hm
      rcases hm with rfl | rfl | hy
      · exact .inr (.inr (.inr ⟨10, by omega, rfl⟩))
      · exact .inr (.inr (.inl ⟨9, by omega, rfl⟩))
      · exact .inr (.inl hy)
    refine (outp hG hP (i := 9) (K := 0) (pre := []) rfl h a3 a2 (Wrote.refl hb hq) (by simp) (hr.le (by rw [decimal_len]; simp))).mono ?_
    have hd := decimal_step (s (P.n 9 + 348)).toNat
    rw [if_pos (by simp only [Nat.sub_zero, Nat.zero_add, Nat.pow_one] at hN; omega)] at hd
    rintro s' ⟨g1, g2⟩
    simp only [Nat.sub_zero]
    rw [hd]
    exact ⟨g1, g2⟩
  | k + 1, wp, s, hk, h, hN, hr => by
    have e9 : 8 - k + 1 = 9 - k := by omega
    have e8 : 9 - (k + 1) = 8 - k := by omega
    rw [e8] at hN hr ⊢
    refine Does.seq ((dgt_does hG.wf hP (i := 8 - k) (by omega) s).mono ?_)
    rintro s1 ⟨a1, a2, a3⟩
    rw [e9] at a1
    generalize hNN : (s (P.n (8 - k) + 348)).toNat = N at *
    have hq := (h.wr _ hP.w).2.1
    have hb : BRep G cp ⟨rp, wp, s1⟩ s1 := by
      refine h.moveD hG fun x hx hn => a3 x fun hm => hn (hP.int x ?_ hx)
      simp only [List.mem_cons] at hm
      rcases hm with rfl | rfl | hy
      · exact .inr (.inr (.inr ⟨8 - k + 1, by omega, rfl⟩))
      · exact .inr (.inr (.inl ⟨8 - k, by omega, rfl⟩))
      · exact .inr (.inl hy)
    have mid : Does L (.ite .skip [cMem (P.n (9 - k) + 348) .exactly 0] .skip (P.lev L G k)) s1 fun s2 =>
        Wrote G cp P.w (fun y => P.scr (k + 1) y ∧ y ≠ P.c (8 - k) + 348) rp wp s1 s2 (if N / 10 = 0 then [] else decimal (N / 10)) ∧
        s2 (P.fe + 348) = s1 (P.fe + 348) + BitVec.ofNat 32 (if N / 10 = 0 then [] else decimal (N / 10)).length := by
      refine Does.ite0 (by simp only [List.mem_singleton, forall_eq]; exact cMem_ok (cell_val hG.wf (hP.vn _ (by omega))) _ _ _) ?_ ?_ <;>
        simp only [holdsAll_cons, holdsAll_nil, Bool.and_true, cMem_holds, compare, decide_eq_true_eq, decide_eq_false_iff_not] <;> intro hz
      · rw [if_pos (by rw [← a1, hz]; rfl)]
        exact Does.skip ⟨Wrote.refl hb hq, by simp⟩
      · rw [if_neg (by rw [← a1]; exact fun e => hz (BitVec.eq_of_toNat_eq e))]
        have := lev_does hG hP k (by omega) hb (by rw [a1]; rw [Nat.pow_succ] at hN; omega) (by
          rw [a1]
          refine hr.le ?_
          rw [decimal_len N, if_neg (by rw [← a1]; exact fun e => hz (BitVec.eq_of_toNat_eq e))]
          exact Nat.le_succ _)
        rw [a1] at this
        refine this.mono fun s2 h2 => ⟨h2.1.mono fun y hy => ⟨scr_mono hy, ?_⟩, h2.2⟩
        rintro rfl
        rcases hy with e | hy | ⟨j, h1, h3, e | e⟩
        · exact (hP.fo _ (by simp)).2.1 (8 - k) (by omega) e.symm
        · exact (hP.dn _ hy).1 (8 - k) (by omega) rfl
        · exact hP.cc (8 - k) (by omega) j h3 (by omega) (by omega)
        · exact hP.cn (8 - k) (by omega) (j + 1) (by omega) (by omega)
    refine Does.seq (mid.mono ?_)
    rintro s2 ⟨m1, m2⟩
    refine (outp hG hP (i := 8 - k) (K := k + 1) (by omega) h a3 a2 m1 m2 (by rw [← decimal_len]; exact hr)).mono ?_
    rintro s' ⟨g1, g2⟩
    rw [decimal_len, decimal_step]
    exact ⟨g1, g2⟩

/-- What the subroutine does: it writes the numeral and adds its length to `dst`. -/
theorem sub_spec (hG : G.Ok L br) (hP : P.Ok L G) {dst back : Nat} {number : Src} (hb : back < 2 ^ 32) (hd : dst ∈ L.P.vars ∧ EpdOK (dst + 348) ∧ ¬ G.Int (dst + 348) ∧ ¬ P.all (dst + 348))
    (hs : ∀ v, number = .var v → v ∈ L.P.vars ∧ v + 348 ∉ [P.fe + 4, P.fe + 344]) (h : BRep G cp ⟨rp, wp, s⟩ s) (h0 : s (P.fe + 348) = 0)
    (hr : Room L G (fun y => P.all y ∨ y = dst + 348) (wp P.w) (decimal (number.valM s).toNat).length) :
    Does L (P.sub L G dst number back) s fun s' => Wrote G cp P.w (fun y => P.all y ∨ y = dst + 348) rp wp s s' (decimal (number.valM s).toNat) ∧
      s' (dst + 348) = s (dst + 348) + BitVec.ofNat 32 (decimal (number.valM s).toNat).length ∧ s' (P.fe + 348) = 0 := by
  have hq := (h.wr _ hP.w).2.1
  have c0 : L.cell (P.n 0 + 348) := cell_val hG.wf (hP.vn 0 (by decide))
  have f0 := hP.fo _ (show P.fe + 348 ∈ _ by simp)
  have f4 := hP.fo _ (show P.fe + 4 ∈ _ by simp)
  have f344 := hP.fo _ (show P.fe + 344 ∈ _ by simp)
  refine sub_does (by simpa using ⟨hP.cf.1, hP.cf.2.1, c0⟩) (by simpa using fun v hv => (hs v hv).1) ?_
  simp only [runAsg_cons, runAsg_nil, arith]
  have hnv : Src.valM ((s.set (P.fe + 4) (Src.valM s (.const (BitVec.ofNat 32 back)))).set (P.fe + 344) (Src.valM (s.set (P.fe + 4) (Src.valM s (.const (BitVec.ofNat 32 back)))) (.const (epd (dst + 348))))) number = number.valM s := by
    cases number with
    | const _ => rfl
    | var v =>
      have := (hs v rfl).2
      simp only [List.mem_cons, List.not_mem_nil, or_false, not_or] at this
      simp only [Src.valM, get_set, if_neg this.1, if_neg this.2]
  rw [hnv]
  simp only [Src.valM_const]
  generalize hs1 : ((s.set (P.fe + 4) (BitVec.ofNat 32 back)).set (P.fe + 344) (epd (dst + 348))).set (P.n 0 + 348) (number.valM s) = s1
  have o1 : Only [P.fe + 4, P.fe + 344, P.n 0 + 348] s s1 := by rw [← hs1]; exact (((Only.refl _ s).set (by simp) _).set (by simp) _).set (by simp) _
  have v0 : s1 (P.n 0 + 348) = number.valM s := by rw [← hs1, set_eq]
  have v4 : s1 (P.fe + 4) = BitVec.ofNat 32 back := by rw [← hs1, set_ne (f4.2.2 0 (by decide)), set_ne (by omega), set_eq]
  have v344 : s1 (P.fe + 344) = epd (dst + 348) := by rw [← hs1, set_ne (f344.2.2 0 (by decide)), set_eq]
  have a1 : ∀ y ∈ [P.fe + 4, P.fe + 344, P.n 0 + 348], P.all y := by
    simp only [List.mem_cons, List.not_mem_nil, or_false, forall_eq_or_imp, forall_eq]
    exact ⟨.inl (by simp), .inl (by simp), .inr (.inr (.inr ⟨0, by decide, rfl⟩))⟩
  have v348 : s1 (P.fe + 348) = 0 := by
    rw [o1 _ ?_, h0]
    simp only [List.mem_cons, List.not_mem_nil, or_false, not_or]
    exact ⟨by omega, by omega, f0.2.2 0 (by decide)⟩
  have vd : s1 (dst + 348) = s (dst + 348) := o1 _ fun hm => hd.2.2.2 (a1 _ hm)
  have w1 : Wrote G cp P.w (fun y => P.all y ∨ y = dst + 348) rp wp s s1 [] := (Wrote.refl h hq).loc hG o1 (fun y hy => .inl (a1 y hy)) (fun y hy => hP.int y (a1 y hy))
  have hb1 : BRep G cp ⟨rp, wp, s1⟩ s1 := by
    have := w1.1
    rwa [List.length_nil, posB_zero hq, upd_id] at this
  have hr' : Room L G P.all (wp P.w) (decimal (number.valM s).toNat).length := fun k hk => ⟨(hr k hk).1, (hr k hk).2.1, (hr k hk).2.2.1, fun ha => (hr k hk).2.2.2 (.inl ha)⟩
  refine (lev_does hG hP 9 (by decide) hb1 (Nat.lt_trans (BitVec.isLt _) (by decide)) (by rw [show 9 - 9 = 0 from rfl, v0]; exact hr')).mono ?_
  rw [show 9 - 9 = 0 from rfl, v0, v348]
  rintro s2 ⟨g1, g2⟩
  have keep : ∀ y ∈ [P.fe + 4, P.fe + 344], s2 y = s1 y := by
    intro y hy
    have hy3 : y ∈ [P.fe + 4, P.fe + 344, P.fe + 348] := by simp only [List.mem_cons, List.not_mem_nil, or_false] at hy ⊢; grind
    refine g1.keep hq (Nat.le_refl _) hr' ?_ ?_ (.inl hy3)
    · simp only [List.mem_cons, List.not_mem_nil, or_false] at hy
      rcases hy with rfl | rfl
      · exact hP.iv.2.2.1
      · exact hP.iv.2.2.2.1
    · rintro (e | e | ⟨j, -, hj, e | e⟩)
      · simp only [List.mem_cons, List.not_mem_nil, or_false] at hy; omega
      · exact (hP.fo _ hy3).1 e
      · exact (hP.fo _ hy3).2.1 j hj e
      · exact (hP.fo _ hy3).2.2 (j + 1) (by omega) e
  have kd : s2 (dst + 348) = s (dst + 348) := by
    rw [g1.keep hq (Nat.le_refl _) (S' := fun y => P.all y ∨ y = dst + 348) hr hd.2.2.1 (fun e => hd.2.2.2 (scr_all e)) (.inr rfl), vd]
  have nf : ∀ y ∈ [P.fe + 4, P.fe + 344, P.fe + 348], dst + 348 ≠ y := fun y hy e => hd.2.2.2 (.inl (e ▸ hy))
  obtain ⟨r1, r2⟩ := aAddHole_spec (L := L) (p := P.fe + 328) (d := dst + 348) (s := s2) (ps := [aMem (P.fe + 348) .set 0])
    (by rw [Nat.add_assoc, show 328 + 16 = 344 from rfl, keep _ (by simp), v344]) hd.2.1 (cell_val hG.wf hd.1) (actsOk_mem hP.cf.2.2 trivial)
  refine ⟨r2, ?_⟩
  simp only [fin, runPA_cons, runPA_nil, r1, aMem_run, arith]
  rw [Nat.add_assoc, show 328 + 20 = 348 from rfl]
  refine ⟨?_, ?_, ?_, by rw [set_eq]⟩
  · rw [set_ne (by omega), set_ne (Ne.symm (nf _ (by simp))), keep _ (by simp), v4]
  · have w2 : Wrote G cp P.w (fun y => P.all y ∨ y = dst + 348) rp wp s s2 (decimal (number.valM s).toNat) := by
      have := Wrote.comp hq w1 (l2 := decimal (number.valM s).toNat) (s2 := s2) (by
        rw [List.length_nil, posB_zero hq, upd_id]
        exact g1.mono fun y hy => .inl (scr_all hy))
      exact this
    refine w2.loc hG (T := [dst + 348, P.fe + 348]) (((Only.refl _ _).set (by simp) _).set (by simp) _) ?_ ?_
    · simp only [List.mem_cons, List.not_mem_nil, or_false, forall_eq_or_imp, forall_eq]
      exact ⟨.inr trivial, .inl (.inl (by simp))⟩
    · simp only [List.mem_cons, List.not_mem_nil, or_false, forall_eq_or_imp, forall_eq]
      exact ⟨fun hI => absurd hI hd.2.2.1, fun hI => absurd hI hP.iv.2.2.2.2⟩
  · rw [set_ne (nf _ (by simp)), set_eq, kd, g2, show (0 : W) = 0#32 from rfl, BitVec.zero_add]

end DecPr

/-! ## Functions that print -/

/-- eudprint.py:59-73, 146-158, 203-215: a function with the parameters `dst` and `num` that seeks `bw1` to `dst`, prints, writes 0 and returns `dst`. -/
structure PrFn where
  np : Nat
  fs : Nat
  fe : Nat
  r : Nat
  dst : Nat
  num : Nat
  k1 : Nat
  k2 : Nat
  w : Nat

namespace PrFn
variable (F : PrFn)

def own : List Nat := [F.np, F.r + 4, F.r + 344, F.r + 348, F.dst + 348, F.num + 348]

/-- eudprint.py:155-158: `bw1.seekoffset(dst)`, what prints, `bw1.writebyte(0)`, `return dst`. -/
def body (L : Layout) (G : BCfg) (mid : Stmt) : Stmt :=
  .seq ((BOp.wseekV F.w (.var F.dst)).stmt L G F.k1) (.seq mid (.seq ((BOp.writeC F.w 0).stmt L G F.k2) (retVar F.r F.dst)))

def call (L : Layout) (G : BCfg) (mid : Stmt) (back o : Nat) (d x : Src) : Stmt := .prim (CallRel L F.fe F.np back (F.body L G mid) [(F.r, o)] [(F.dst + 348, d), (F.num + 348, x)])

/-- The function is in place; `T` are the dwords of what prints. -/
structure Ok (L : Layout) (G : BCfg) (mid : Stmt) (T : List Nat) : Prop where
  w : F.w < G.nw
  cel : ∀ x ∈ [F.np, F.r + 344, F.r + 348], L.cell x
  int : ∀ x ∈ F.own, ¬ G.Int x
  vars : ∀ v ∈ [F.dst, F.num], VarU L G v
  nd : F.own.Nodup
  lab : F.k1 < 2 ^ 32 ∧ F.k2 < 2 ^ 32
  sep : ∀ y ∈ T, y ∉ F.own
  func : FuncCode L F.fs F.fe F.np [F.r] (F.body L G mid)

variable {F} {L : Layout} {G : BCfg} {br : Nat → Nat} {cp : W} {rp rp' wp : Nat → Nat} {s : Mem} {mid : Stmt} {T : List Nat}

/-- Calls of such functions, if what prints is as it should be. -/
theorem run (hG : G.Ok L br) (hF : F.Ok L G mid T) {back o : Nat} (hb : back < 2 ^ 32) (ho : DestU L G (F.own ++ T) o) {d x : Src} (hd : ArgU L G F.own d) (hx : ArgU L G F.own x)
    (h : BRep G cp ⟨rp, wp, s⟩ s) {l : List (BitVec 8)} (hr : Room L G (· ∈ F.own ++ T) (d.valM s).toNat (l.length + 1)) {inv : List (Nat × W)} (hi : ∀ p ∈ inv, p.1 ∈ T ∧ ¬ G.Int p.1 ∧ s p.1 = p.2)
    (hm : ∀ s1, BRep G cp ⟨rp, upd wp F.w (d.valM s).toNat, s1⟩ s1 → s1 (F.dst + 348) = d.valM s → s1 (F.num + 348) = x.valM s → (∀ y, ¬ G.Int y → y ∉ F.own → s1 y = s y) →
      Does L mid s1 fun s2 => Wrote G cp F.w (fun y => y ∈ T ∨ y = F.dst + 348) rp' (upd wp F.w (d.valM s).toNat) s1 s2 l ∧ s2 (F.dst + 348) = d.valM s + BitVec.ofNat 32 l.length ∧ ∀ p ∈ inv, s2 p.1 = p.2) :
    Does L (F.call L G mid back o d x) s fun s' => BRep G cp ⟨rp', upd wp F.w (posB (d.valM s).toNat (l.length + 1)), s'⟩ s' ∧ s' o = d.valM s + BitVec.ofNat 32 l.length ∧ (∀ p ∈ inv, s' p.1 = p.2) ∧
      ∀ y, ¬ G.Int y → y ≠ o → y ∉ F.own → y ∉ T → s' y = putBytes s (d.valM s).toNat (l ++ [0]) y := by
  obtain ⟨vd, vn⟩ : VarU L G F.dst ∧ VarU L G F.num := ⟨hF.vars _ (by simp), hF.vars _ (by simp)⟩
  obtain ⟨co, eo, io, no⟩ := ho
  rw [List.mem_append, not_or] at no
  have nd := hF.nd
  have hint := hF.int
  have hsep := hF.sep
  simp only [own, List.nodup_cons, List.mem_cons, not_or, List.not_mem_nil, not_false_eq_true, List.nodup_nil, and_true, or_false] at nd
  have hq : (d.valM s).toNat < 2 ^ 32 := (d.valM s).isLt
  generalize hD : (d.valM s).toNat = D at *
  let scr := [F.r + 348, F.dst + 348] ++ (T ++ (List.range (l.length + 1)).map fun i => posB D i / 4 * 4)
  have ns : ∀ y ∈ F.own, y ≠ F.r + 348 → y ≠ F.dst + 348 → y ∉ scr := by
    intro y hy h1 h2
    simp only [scr, List.mem_append, List.mem_cons, List.not_mem_nil, or_false, List.mem_map, List.mem_range, not_or, not_exists, not_and]
    exact ⟨⟨h1, h2⟩, fun ht => hsep y ht hy, fun i hi e => (hr i hi).2.2.2 (by rw [e]; exact List.mem_append_left _ hy)⟩
  have hk : BCallOk L G F.np [(F.r, o)] [(F.dst + 348, d), (F.num + 348, x)] scr := by
    refine ⟨callOk1R (hF.cel _ (by simp)) (hF.cel _ (by simp)) co eo ?_ ?_ (by grind) ?_ ?_ ?_ ?_, hint _ (by simp [own]), ?_, ?_⟩
    · simp only [List.mem_cons, List.not_mem_nil, or_false, forall_eq_or_imp, forall_eq]
      exact ⟨cell_val hG.wf vd.1, cell_val hG.wf vn.1⟩
    · simp only [List.map_cons, List.map_nil, List.nodup_cons, List.mem_cons, not_or, List.not_mem_nil, not_false_eq_true, List.nodup_nil, and_true, or_false]; grind
    · simp only [List.map_cons, List.map_nil, List.mem_cons, List.not_mem_nil, or_false, forall_eq_or_imp, forall_eq]
      simp only [ArgU, own, List.mem_cons, List.not_mem_nil, or_false, not_or] at hd hx
      exact ⟨fun v hv => ⟨(hd v hv).1, by have := (hd v hv).2.2; grind⟩, fun v hv => ⟨(hx v hv).1, by have := (hx v hv).2.2; grind⟩⟩
    · have := no.1
      simp only [own, List.mem_cons, List.not_mem_nil, or_false, not_or] at this ⊢; grind
    · exact ns _ (by simp [own]) (by grind) (by grind)
    · exact ns _ (by simp [own]) (by grind) (by grind)
    · simp only [List.mem_singleton, forall_eq]
      exact ⟨hint _ (by simp [own]), hint _ (by simp [own]), io⟩
    · simp only [List.mem_cons, List.not_mem_nil, or_false, forall_eq_or_imp, forall_eq]
      exact ⟨vd.2.1, vn.2.1⟩
  have ir := hint (F.r + 348) (by simp [own])
  refine (bcall_does hG.wf hk hF.func hb h (Q := fun σ2 => σ2.rp = rp' ∧ σ2.wp = upd wp F.w (posB D (l.length + 1)) ∧ σ2.m (F.r + 348) = d.valM s + BitVec.ofNat 32 l.length ∧ (∀ p ∈ inv, σ2.m p.1 = p.2) ∧
    ∀ y, ¬ G.Int y → y ∉ F.own → y ∉ T → σ2.m y = putBytes s D (l ++ [0]) y) ?_).mono ?_
  · intro s1 e1 e2 h1
    simp only [List.mem_cons, List.not_mem_nil, or_false, forall_eq_or_imp, forall_eq] at e1
    have hon : ∀ y, y ∉ F.own → s1 y = s y := fun y hy => e2 y (by
      simp only [List.map_nil, List.nil_append, List.map_cons, List.cons_append, own, List.mem_cons, List.not_mem_nil, or_false, not_or] at hy ⊢; grind)
    refine Wp.seqN ((C37_step hG h1 hF.lab.1 (.wseekV F.w (.var F.dst)) ⟨hF.w, vd.src⟩).mono fun s2 h2 => ?_)
    have v2 : ∀ y, ¬ G.Int y → s2 y = s1 y := h2.vis
    have h2' := h2.here
    simp only [BOp.spec, valM_var, e1.1, hD] at h2'
    refine Wp.seqN ((hm s2 h2' (by rw [v2 _ vd.2.1, e1.1]) (by rw [v2 _ vn.2.1, e1.2]) (fun y hy h5 => by rw [v2 y hy, hon y h5])).mono ?_)
    rintro s3 ⟨g1, g2, g3⟩
    have hp := g1.1
    rw [BHist.upd_self, upd_upd] at hp
    refine Wp.seqN ((wrC_does (S := (· ∈ F.own ++ T)) hG hF.w hp hF.lab.2 (by rw [BHist.upd_self]; exact hr.at (Nat.le_refl _))).mono fun s4 g4 => ?_)
    have g5 : Wrote G cp F.w (fun y => y ∈ T ∨ y = F.dst + 348) rp' (upd wp F.w D) s2 s4 (l ++ [0]) := by
      refine Wrote.comp (by rw [BHist.upd_self]; exact hq) g1 ?_
      rw [BHist.upd_self, upd_upd]
      exact g4.mono fun _ h => h.elim
    have k4 : ∀ y ∈ F.own ++ T, ¬ G.Int y → s4 y = s3 y := fun y hy hI =>
      g4.keep (L := L) (n := 1) (by rw [BHist.upd_self]; exact posB_lt _ _) (by simp) (S' := (· ∈ F.own ++ T)) (by rw [BHist.upd_self]; exact hr.at (Nat.le_refl _)) hI (fun h => h) hy
    have hp5 := g5.1
    rw [BHist.upd_self, upd_upd, List.length_append, List.length_singleton] at hp5
    have q5 : ∀ y, ¬ G.Int y → y ∉ T → y ≠ F.dst + 348 → s4 y = putBytes s2 D (l ++ [0]) y := fun y hy ht hn => by
      rw [g5.2 y hy (fun e => e.elim ht hn), BHist.upd_self]
    refine Wp.seqN (Does.asg (by simpa using hF.cel _ (by simp)) (by simpa using vd.1) (Wp.ret ⟨.inr rfl, ⟨rp', _, s4.set (F.r + 348) (s4 (F.dst + 348))⟩, ?_, ⟨rfl, rfl, ?_, ?_, ?_⟩, ?_⟩))
    · exact hp5.move fun y hy => set_ne fun e => ir (e ▸ hy)
    · simp only [set_eq]
      rw [k4 _ (by simp [own]) vd.2.1, g2]
    · intro p hpi
      obtain ⟨i1, i2, -⟩ := hi p hpi
      simp only
      rw [set_ne (fun e => hsep _ i1 (by rw [e]; simp [own])), k4 _ (List.mem_append_right _ i1) i2, g3 p hpi]
    · intro y hy h5 h6
      simp only
      rw [set_ne (fun e => h5 (by rw [e]; simp [own])), q5 y hy h6 (fun e => h5 (by rw [e]; simp [own]))]
      exact putBytes_congr (by rw [v2 y hy, hon y h5])
    · intro y hy h5
      simp only [scr, List.mem_append, List.mem_cons, List.not_mem_nil, or_false, List.mem_map, List.mem_range, not_or, not_exists, not_and] at h5
      simp only
      rw [set_ne h5.1.1, q5 y hy h5.2.1 h5.1.2, putBytes_ne hq fun k hk e => h5.2.2 k (by simpa using hk) e.symm, v2 y hy]
  · rintro s' ⟨⟨rp2, wp2, m2⟩, ⟨rfl, rfl, g1, g2, g3⟩, g4, g5, g6⟩
    have io' : ∀ y ∈ T, y ∉ [F.r + 4] := fun y hy e => hsep y hy (by rw [List.mem_singleton.1 e]; simp [own])
    refine ⟨g4, ?_, fun p hp => ?_, fun y hy h1 h2 h3 => ?_⟩
    · rcases g5 _ (List.mem_singleton.2 rfl) with e | e
      · rw [e]; exact g1
      · exact absurd e ir
    · obtain ⟨i1, i2, -⟩ := hi p hp
      rw [g6 _ i2 (by rw [List.map_singleton, List.mem_singleton]; exact fun e : p.1 = o => no.2 (e ▸ i1)) (by simpa using io' _ i1)]
      exact g2 p hp
    · rw [g6 y hy (by simpa using h1) (by simpa using fun e => h2 (by rw [e]; simp [own]))]
      exact g3 y hy h2 h3

end PrFn

/-! ## `f_dbstr_adddw` -/

namespace DecPr
variable {P : DecPr} {L : Layout} {G : BCfg} {br : Nat → Nat} {cp : W} {rp wp : Nat → Nat} {s : Mem}

/-- The dwords of the subroutine, as a list. -/
def dws (P : DecPr) : List Nat := [P.fe + 4, P.fe + 344, P.fe + 348] ++ (P.D.own ++ ((List.range 10).map (fun j => P.c j + 348) ++ (List.range 11).map fun j => P.n j + 348))

theorem mem_dws {y : Nat} : y ∈ P.dws ↔ P.all y := by
  unfold dws all
  rw [List.mem_append, List.mem_append, List.mem_append]
  simp only [List.mem_map, List.mem_range]
  constructor
  · rintro (h | h | ⟨j, h1, h2⟩ | ⟨j, h1, h2⟩)
    · exact .inl h
    · exact .inr (.inl h)
    · exact .inr (.inr (.inl ⟨j, h1, h2.symm⟩))
    · exact .inr (.inr (.inr ⟨j, h1, h2.symm⟩))
  · rintro (h | h | ⟨j, h1, h2⟩ | ⟨j, h1, h2⟩)
    · exact .inl h
    · exact .inr (.inl h)
    · exact .inr (.inr (.inl ⟨j, h1, h2.symm⟩))
    · exact .inr (.inr (.inr ⟨j, h1, h2.symm⟩))

/-- **C57 (`f_dbstr_adddw`).** For every number, the call writes its decimal numeral without leading zeros and a 0 from `dst` on, whatever the alignment; its result is `dst` and the length of the numeral.
Readers and the other writers stay where they are, other dwords stay as they are, and the subroutine is as before, so that calls may follow each other. -/
theorem C57_adddw (hG : G.Ok L br) (hP : P.Ok L G) {F : PrFn} {ret : Nat} (hF : F.Ok L G (P.sub L G F.dst (.var F.num) ret) P.dws) (hw : F.w = P.w) {back o : Nat} (hret : ret < 2 ^ 32) (hb : back < 2 ^ 32)
    (ho : DestU L G (F.own ++ P.dws) o) {d x : Src} (hd : ArgU L G F.own d) (hx : ArgU L G F.own x) (h : BRep G cp ⟨rp, wp, s⟩ s) (h0 : s (P.fe + 348) = 0)
    (hr : Room L G (· ∈ F.own ++ P.dws) (d.valM s).toNat ((decimal (x.valM s).toNat).length + 1)) :
    Does L (F.call L G (P.sub L G F.dst (.var F.num) ret) back o d x) s fun s' =>
      BRep G cp ⟨rp, upd wp P.w (posB (d.valM s).toNat ((decimal (x.valM s).toNat).length + 1)), s'⟩ s' ∧ s' o = d.valM s + BitVec.ofNat 32 (decimal (x.valM s).toNat).length ∧ s' (P.fe + 348) = 0 ∧
      ∀ y, ¬ G.Int y → y ≠ o → y ∉ F.own → y ∉ P.dws → s' y = putBytes s (d.valM s).toNat (decimal (x.valM s).toNat ++ [0]) y := by
  have vd := hF.vars F.dst (by simp)
  have vn := hF.vars F.num (by simp)
  refine (PrFn.run hG hF hb ho hd hx h hr (inv := [(P.fe + 348, 0)]) (rp' := rp) ?_ ?_).mono ?_
  · simp only [List.mem_singleton, forall_eq]
    exact ⟨mem_dws.2 (.inl (by simp)), hP.iv.2.2.2.2, h0⟩
  · intro s1 b1 e1 e2 e3
    have sd : ¬ P.all (F.dst + 348) := fun ha => hF.sep _ (mem_dws.2 ha) (by simp [PrFn.own])
    rw [hw] at b1
    have hin : P.fe + 348 ∈ P.dws := mem_dws.2 (.inl (by simp))
    have := sub_spec hG hP (dst := F.dst) (number := .var F.num) hret ⟨vd.1, vd.2.2, vd.2.1, sd⟩ ?_ b1 (by rw [e3 _ hP.iv.2.2.2.2 (hF.sep _ hin), h0]) ?_
    · rw [valM_var, e2, e1] at this
      refine this.mono ?_
      rintro s2 ⟨g1, g2, g3⟩
      rw [hw]
      exact ⟨g1.mono fun y hy => hy.imp mem_dws.2 id, g2, by simpa using g3⟩
    · rintro v ⟨⟩
      refine ⟨vn.1, fun hm => hF.sep (F.num + 348) (mem_dws.2 (.inl ?_)) (by simp [PrFn.own])⟩
      simp only [List.mem_cons, List.not_mem_nil, or_false] at hm ⊢; grind
    · rw [valM_var, e2, BHist.upd_self]
      intro k hk
      obtain ⟨r1, r2, r3, r4⟩ := hr k (by omega)
      refine ⟨r1, r2, r3, fun ha => r4 (List.mem_append.2 (ha.elim (fun ha => .inr (mem_dws.2 ha)) fun e => .inl (by rw [e]; simp [PrFn.own])))⟩
  · rintro s' ⟨g1, g2, g3, g4⟩
    rw [hw] at g1
    exact ⟨g1, g2, by simpa using g3, g4⟩

end DecPr

/-! ## Hexadecimal numbers -/

/-- eudprint.py:161-200 `_add_ptr`: the variables `n 0`, ..., `n 8` that `_number` stands for, the digits `c i`, the last trigger `fe`, the function for the division by 16, the places after divisions and writes, and
the writer `bw1`. -/
structure HexPr where
  n : Nat → Nat
  c : Nat → Nat
  fe : Nat
  D : Div4
  bd : Nat → Nat
  bw : Nat → Nat
  w : Nat

namespace HexPr
variable (P : HexPr)

/-- eudprint.py:173-174: `_number, ch[i] = f_div(_number, 16)` from `i = 8 - k` on. -/
def divs (L : Layout) : Nat → Stmt
  | 0 => .skip
  | k + 1 => .seq (.prim (CallRel L P.D.fe P.D.np (P.bd (7 - k)) (divFn P.D.a P.D.q P.D.a 16) [(P.D.q, P.n (8 - k) + 348), (P.D.a, P.c (7 - k) + 348)] [(P.D.a + 348, .var (P.n (7 - k)))])) (divs L k)

/-- eudprint.py:178-183: the digits from `i = k - 1` down. -/
def outs (L : Layout) (G : BCfg) : Nat → Stmt
  | 0 => .skip
  | k + 1 => .seq (.trig [cMem (P.c k + 348) .atLeast 58] [aMem (P.c k + 348) .add 7]) (.seq ((BOp.writeV P.w (.var (P.c k))).stmt L G (P.bw k)) (outs L G k))

/-- eudprint.py:166-183: the subroutine. -/
def body (L : Layout) (G : BCfg) : Stmt := .seq (P.divs L 8) (.seq (.trig [] ((List.range 8).map fun i => aMem (P.c i + 348) .add 48)) (P.outs L G 8))

/-- eudprint.py:190-200: the use of the subroutine, for the variable `dst`. -/
def sub (L : Layout) (G : BCfg) (dst : Nat) (number : Src) (back : Nat) : Stmt :=
  .prim (SubRel L P.fe back [⟨dst + 348, .add, .const 8⟩, ⟨P.fe + 4, .set, .const (BitVec.ofNat 32 back)⟩, ⟨P.n 0 + 348, .set, number⟩] (P.body L G) [])

/-- All dwords of the subroutine. -/
def dws : List Nat := (P.fe + 4) :: (P.D.own ++ ((List.range 8).map (fun j => P.c j + 348) ++ (List.range 9).map fun j => P.n j + 348))

structure Ok (L : Layout) (G : BCfg) : Prop where
  w : P.w < G.nw
  vn : ∀ i < 9, P.n i ∈ L.P.vars
  vc : ∀ i < 8, P.c i ∈ L.P.vars
  cf : L.cell (P.fe + 4)
  lt : ∀ i < 8, P.bd i < 2 ^ 32 ∧ P.bw i < 2 ^ 32
  fc : FuncCode L P.D.fs P.D.fe P.D.np [P.D.q, P.D.a] (divFn P.D.a P.D.q P.D.a 16)
  da : L.cell (P.D.a + 348) ∧ L.cell (P.D.q + 348) ∧ P.D.a ≠ P.D.q
  dk : ∀ i < 8, CallOk L P.D.np [(P.D.q, P.n (i + 1) + 348), (P.D.a, P.c i + 348)] [(P.D.a + 348, .var (P.n i))] [P.D.q + 348, P.D.a + 348]
  int : ∀ y ∈ P.dws, G.Int y → y ∈ G.D.own
  iv : (∀ i < 8, ¬ G.Int (P.c i + 348)) ∧ ¬ G.Int (P.fe + 4)
  cc : ∀ i < 8, ∀ j < 8, i ≠ j → P.c i ≠ P.c j
  cn : ∀ i < 8, ∀ j < 9, P.c i ≠ P.n j
  nn : ∀ i < 9, ∀ j < 9, i ≠ j → P.n i ≠ P.n j
  fo : P.fe + 4 ∉ P.D.own ∧ (∀ i < 8, P.fe + 4 ≠ P.c i + 348) ∧ ∀ i < 9, P.fe + 4 ≠ P.n i + 348
  dn : ∀ y ∈ P.D.own, (∀ i < 8, y ≠ P.c i + 348) ∧ ∀ i < 9, y ≠ P.n i + 348

variable {P} {L : Layout} {G : BCfg} {br : Nat → Nat} {cp : W} {rp wp : Nat → Nat} {s s' : Mem}

theorem mem_dws {y : Nat} : y ∈ P.dws ↔ y = P.fe + 4 ∨ y ∈ P.D.own ∨ (∃ j < 8, y = P.c j + 348) ∨ ∃ j < 9, y = P.n j + 348 := by
  unfold dws
  rw [List.mem_cons, List.mem_append, List.mem_append]
  simp only [List.mem_map, List.mem_range]
  simp only [eq_comm (a := y)]

theorem divs_does (hw : L.Wf) (hP : P.Ok L G) : ∀ k ≤ 8, ∀ s, Does L (P.divs L k) s fun s' =>
    (∀ j < 8, 8 ≤ j + k → (s' (P.c j + 348)).toNat = (s (P.n (8 - k) + 348)).toNat / 16 ^ (j + k - 8) % 16) ∧
      ∀ y, y ∉ P.D.own → (∀ j < 8, 8 ≤ j + k → y ≠ P.c j + 348 ∧ y ≠ P.n (j + 1) + 348) → s' y = s y
  | 0, _, s => Does.skip ⟨fun j h1 h2 => by omega, fun _ _ _ => rfl⟩
  | k + 1, hk, s => by
    have e8 : 8 - (k + 1) = 7 - k := by omega
    have e9 : 8 - k = 7 - k + 1 := by omega
    unfold divs
    rw [e8, e9]
    have hi : 7 - k < 8 := by omega
    refine Does.seq ((C21_number hw hP.da.1 (fun h => absurd h (by decide)) hP.da.2.1 hP.da.1 hP.da.2.2 (Ne.symm hP.da.2.2) (by simp) (hP.dk (7 - k) hi) hP.fc (hP.lt (7 - k) hi).1 s).mono ?_)
    rintro s1 ⟨h1, h2, h3⟩
    simp only [quotE, remE, Src.valM, if_neg (show ¬ (16 = 0) by decide)] at h1 h2
    have hx := (s (P.n (7 - k) + 348)).isLt
    have t1 : (s1 (P.n (7 - k + 1) + 348)).toNat = (s (P.n (7 - k) + 348)).toNat / 16 := by rw [h1, BitVec.toNat_ofNat, Nat.mod_eq_of_lt (by omega)]
    have t2 : (s1 (P.c (7 - k) + 348)).toNat = (s (P.n (7 - k) + 348)).toNat % 16 := by rw [h2, BitVec.toNat_ofNat, Nat.mod_eq_of_lt (by omega)]
    refine (divs_does hw hP k (by omega) s1).mono ?_
    rw [e9, t1]
    rintro s' ⟨g1, g2⟩
    refine ⟨fun j hj hjk => ?_, fun y hy hn => ?_⟩
    · by_cases e : j = 7 - k
      · subst e
        rw [g2 _ (fun hm => (hP.dn _ hm).1 _ hi rfl) fun j' hj' hk' => ⟨fun e => hP.cc (7 - k) hi j' hj' (by omega) (by omega), fun e => hP.cn (7 - k) hi (j' + 1) (by omega) (by omega)⟩, t2, show 7 - k + (k + 1) - 8 = 0 by omega, Nat.pow_zero, Nat.div_one]
      · rw [g1 j hj (by omega), show j + (k + 1) - 8 = (j + k - 8) + 1 by omega, Nat.pow_succ, Nat.mul_comm, Nat.div_div_eq_div_mul]
    · rw [g2 y hy fun j hj hjk => hn j hj (by omega), h3 y ?_]
      have := hn (7 - k) hi (by omega)
      simp only [callOnly, Div4.own, List.map_cons, List.map_nil, List.cons_append, List.nil_append, List.mem_cons, List.not_mem_nil, or_false, not_or] at hy ⊢
      grind

/-- The digits. -/
def cset (P : HexPr) (y : Nat) : Prop := ∃ j < 8, y = P.c j + 348

/-- The numeral without its higher digits. -/
def low (N : Nat) : Nat → List (BitVec 8)
  | 0 => []
  | k + 1 => hexDigit (N / 16 ^ k % 16) :: low N k

theorem low_len (N : Nat) : ∀ k, (low N k).length = k
  | 0 => rfl
  | k + 1 => by rw [low, List.length_cons, low_len N k]

theorem hex8_low (N : Nat) : hex8 N = low N 8 := rfl

theorem hexDigit_eq : ∀ d < 16, hexDigit d = BitVec.ofNat 8 (if 58 ≤ d + 48 then d + 48 + 7 else d + 48) := by decide +kernel

theorem outs_does (hG : G.Ok L br) (hP : P.Ok L G) {N : Nat} : ∀ k ≤ 8, ∀ {s : Mem} {wp : Nat → Nat}, BRep G cp ⟨rp, wp, s⟩ s → (∀ j < k, (s (P.c j + 348)).toNat = N / 16 ^ j % 16 + 48) → Room L G (· ∈ P.dws) (wp P.w) k →
    Does L (P.outs L G k) s fun s' => Wrote G cp P.w P.cset rp wp s s' (low N k)
  | 0, _, s, wp, h, _, _ => Does.skip (Wrote.refl h (h.wr _ hP.w).2.1)
  | k + 1, hk, s, wp, h, hc, hr => by
    have hq := (h.wr _ hP.w).2.1
    have ck : L.cell (P.c k + 348) := cell_val hG.wf (hP.vc k (by omega))
    refine Does.seq (Does.mono (Q := fun s1 => (s1 (P.c k + 348)).setWidth 8 = hexDigit (N / 16 ^ k % 16) ∧ Only [P.c k + 348] s s1) ?_ ?_)
    · have hv := hc k (by omega)
      have hlt : N / 16 ^ k % 16 < 16 := Nat.mod_lt _ (by decide)
      refine Does.trig (by simp only [List.mem_singleton, forall_eq]; exact cMem_ok ck _ _ _) (fun hh => ?_) fun hh => ?_
      · refine ⟨actsOk_mem ck trivial, ?_, ?_⟩
        · simp only [runPA_cons, runPA_nil, aMem_run, arith, set_eq]
          simp only [holdsAll_cons, holdsAll_nil, Bool.and_true, cMem_holds, compare, decide_eq_true_eq, BitVec.le_def] at hh
          have h58 : 58 ≤ N / 16 ^ k % 16 + 48 := by rw [← hv]; exact hh
          rw [hexDigit_eq _ hlt, if_pos h58]
          apply BitVec.eq_of_toNat_eq
          rw [BitVec.toNat_setWidth, BitVec.toNat_add, hv, BitVec.toNat_ofNat, show (7 : W).toNat = 7 from rfl]
          omega
        · simp only [runPA_cons, runPA_nil, aMem_run]
          exact (Only.refl _ s).set (by simp) _
      · simp only [holdsAll_cons, holdsAll_nil, Bool.and_true, cMem_holds, compare, decide_eq_false_iff_not, BitVec.le_def] at hh
        have h58 : ¬ 58 ≤ N / 16 ^ k % 16 + 48 := by rw [← hv]; exact hh
        refine ⟨?_, Only.refl _ s⟩
        rw [hexDigit_eq _ hlt, if_neg h58]
        apply BitVec.eq_of_toNat_eq
        rw [BitVec.toNat_setWidth, hv, BitVec.toNat_ofNat]
    · rintro s1 ⟨e1, e2⟩
      have w1 : Wrote G cp P.w P.cset rp wp s s1 [] := (Wrote.refl h hq).loc hG e2 (by simpa using ⟨k, by omega, rfl⟩) (by simpa using fun hI => absurd hI (hP.iv.1 k (by omega)))
      have b1 : BRep G cp ⟨rp, wp, s1⟩ s1 := by
        have := w1.1
        rwa [List.length_nil, posB_zero hq, upd_id] at this
      refine Does.seq ((wr_does (w := P.w) (S := (· ∈ P.dws)) hG hP.w b1 (x := .var (P.c k)) (fun v hv => by cases hv; exact ⟨hP.vc k (by omega), hP.iv.1 k (by omega)⟩) (hP.lt k (by omega)).2 (hr.le (by omega))).mono ?_)
      rw [valM_var, e1]
      intro s2 w2
      refine (outs_does hG hP (N := N) k (by omega) w2.1 (fun j hj => ?_) ?_).mono fun s3 w3 => ?_
      · rw [w2.keep (S' := (· ∈ P.dws)) (n := 1) hq (by simp) (hr.le (by omega)) (hP.iv.1 j (by omega)) (fun h => h) (mem_dws.2 (.inr (.inr (.inl ⟨j, by omega, rfl⟩)))), e2 _ ?_, hc j (by omega)]
        rw [List.mem_singleton]
        exact fun e => hP.cc j (by omega) k (by omega) (by omega) (by omega)
      · rw [BHist.upd_self]
        exact hr.at (by simp; omega)
      · refine Wrote.comp (l1 := []) hq w1 ?_
        rw [List.length_nil, posB_zero hq, upd_id]
        exact Wrote.comp (l1 := [_]) hq (w2.mono fun _ h => h.elim) w3

theorem addAll : ∀ (l : List Nat) (s : Mem), l.Nodup → (∀ y ∈ l, runPA (l.map fun a => aMem a .add 48) s y = s y + 48) ∧ ∀ y, y ∉ l → runPA (l.map fun a => aMem a .add 48) s y = s y
  | [], s, _ => ⟨by simp, fun _ _ => rfl⟩
  | a :: l, s, h => by
    obtain ⟨h1, h2⟩ := List.nodup_cons.1 h
    obtain ⟨g1, g2⟩ := addAll l (s.set a (s a + 48)) h2
    simp only [List.map_cons, runPA_cons, aMem_run, arith]
    refine ⟨fun y hy => ?_, fun y hy => ?_⟩
    · by_cases e : y = a
      · subst e; rw [g2 y h1, set_eq]
      · rw [g1 y ((List.mem_cons.1 hy).resolve_left e), set_ne e]
    · rw [List.mem_cons, not_or] at hy
      rw [g2 y hy.2, set_ne hy.1]

theorem acts_ok : ∀ (l : List Nat) (s : Mem), (∀ a ∈ l, L.cell a) → ActsOk L (l.map fun a => aMem a .add 48) s
  | [], _, _ => trivial
  | a :: l, s, h => actsOk_mem (h a (by simp)) (acts_ok l _ fun b hb => h b (List.mem_cons_of_mem _ hb))

/-- What the subroutine does: it writes the eight digits and adds 8 to `dst`. -/
theorem sub_spec (hG : G.Ok L br) (hP : P.Ok L G) {dst back : Nat} {number : Src} (hd : dst ∈ L.P.vars ∧ ¬ G.Int (dst + 348) ∧ dst + 348 ∉ P.dws)
    (hs : ∀ v, number = .var v → v ∈ L.P.vars ∧ v + 348 ≠ P.fe + 4 ∧ v ≠ dst) (h : BRep G cp ⟨rp, wp, s⟩ s)
    (hr : Room L G (fun y => y ∈ P.dws ∨ y = dst + 348) (wp P.w) 8) :
    Does L (P.sub L G dst number back) s fun s' => Wrote G cp P.w (fun y => y ∈ P.dws ∨ y = dst + 348) rp wp s s' (hex8 (number.valM s).toNat) ∧ s' (dst + 348) = s (dst + 348) + 8 := by
  have hq := (h.wr _ hP.w).2.1
  have c0 : L.cell (P.n 0 + 348) := cell_val hG.wf (hP.vn 0 (by decide))
  have mf : P.fe + 4 ∈ P.dws := mem_dws.2 (.inl rfl)
  have m0 : P.n 0 + 348 ∈ P.dws := mem_dws.2 (.inr (.inr (.inr ⟨0, by decide, rfl⟩)))
  refine sub_does (by simpa using ⟨cell_val hG.wf hd.1, hP.cf, c0⟩) (by simpa using fun v hv => (hs v hv).1) ?_
  simp only [runAsg_cons, runAsg_nil, arith, Src.valM_const]
  have hnv : Src.valM ((s.set (dst + 348) (s (dst + 348) + 8)).set (P.fe + 4) (BitVec.ofNat 32 back)) number = number.valM s := by
    cases number with
    | const _ => rfl
    | var v =>
      have := (hs v rfl).2
      simp only [Src.valM, get_set, if_neg this.1, if_neg (show v + 348 ≠ dst + 348 by omega)]
  rw [hnv]
  generalize hs1 : ((s.set (dst + 348) (s (dst + 348) + 8)).set (P.fe + 4) (BitVec.ofNat 32 back)).set (P.n 0 + 348) (number.valM s) = s1
  have o1 : Only [dst + 348, P.fe + 4, P.n 0 + 348] s s1 := by rw [← hs1]; exact (((Only.refl _ s).set (by simp) _).set (by simp) _).set (by simp) _
  have v0 : s1 (P.n 0 + 348) = number.valM s := by rw [← hs1, set_eq]
  have v4 : s1 (P.fe + 4) = BitVec.ofNat 32 back := by rw [← hs1, set_ne (hP.fo.2.2 0 (by decide)), set_eq]
  have vd : s1 (dst + 348) = s (dst + 348) + 8 := by rw [← hs1, set_ne (fun e : dst + 348 = _ => hd.2.2 (e ▸ m0)), set_ne (fun e : dst + 348 = _ => hd.2.2 (e ▸ mf)), set_eq]
  have nI : ∀ y, y ∈ P.dws ∨ y = dst + 348 → G.Int y → y ∈ G.D.own := fun y hy hI => hy.elim (fun h => hP.int y h hI) fun e => absurd (e ▸ hI) hd.2.1
  refine Does.seq ((divs_does hG.wf hP 8 (by decide) s1).mono ?_)
  rintro s2 ⟨g1, g2⟩
  rw [show 8 - 8 = 0 from rfl, v0] at g1
  have hnd : ((List.range 8).map fun i => P.c i + 348).Nodup := by
    simp only [List.map_cons, List.map_nil, show List.range 8 = [0, 1, 2, 3, 4, 5, 6, 7] from rfl]
    have cc : ∀ i < 8, ∀ j < 8, i ≠ j → P.c i + 348 ≠ P.c j + 348 := fun i hi j hj hn e => hP.cc i hi j hj hn (by omega)
    simp only [List.nodup_cons, List.mem_cons, List.not_mem_nil, or_false, not_or, List.nodup_nil, and_true, not_false_eq_true]
    refine ⟨⟨?_, ?_, ?_, ?_, ?_, ?_, ?_⟩, ⟨?_, ?_, ?_, ?_, ?_, ?_⟩, ⟨?_, ?_, ?_, ?_, ?_⟩, ⟨?_, ?_, ?_, ?_⟩, ⟨?_, ?_, ?_⟩, ⟨?_, ?_⟩, ?_⟩ <;> exact cc _ (by decide) _ (by decide) (by decide)
  have hmap : ((List.range 8).map fun i => aMem (P.c i + 348) .add 48) = ((List.range 8).map fun i => P.c i + 348).map fun a => aMem a .add 48 := by rw [List.map_map]; rfl
  obtain ⟨a1, a2⟩ := addAll _ s2 hnd
  refine Does.seq (Does.acts ?_ ?_)
  · rw [hmap]
    refine acts_ok _ _ fun a ha => ?_
    obtain ⟨i, hi, rfl⟩ := List.mem_map.1 ha
    exact cell_val hG.wf (hP.vc i (List.mem_range.1 hi))
  rw [hmap]
  generalize runPA (((List.range 8).map fun i => P.c i + 348).map fun a => aMem a .add 48) s2 = s3 at a1 a2 ⊢
  have k3 : ∀ y, ¬ (y ∈ P.dws ∨ y = dst + 348) → s3 y = s y := by
    intro y hy
    rw [not_or, mem_dws] at hy
    simp only [not_or, not_exists, not_and] at hy
    rw [a2 y (by simp only [List.mem_map, List.mem_range, not_exists, not_and]; exact fun i hi e => hy.1.2.2.1 i hi e.symm), g2 y hy.1.2.1 fun j hj _ => ⟨hy.1.2.2.1 j hj, hy.1.2.2.2 (j + 1) (by omega)⟩, o1 y ?_]
    simp only [List.mem_cons, List.not_mem_nil, or_false, not_or]
    exact ⟨hy.2, hy.1.1, hy.1.2.2.2 0 (by decide)⟩
  have kk : ∀ y ∈ [P.fe + 4, dst + 348], s3 y = s1 y := by
    intro y hy
    have hn : y ∉ P.D.own ∧ (∀ i < 8, y ≠ P.c i + 348) ∧ ∀ i < 9, y ≠ P.n i + 348 := by
      simp only [List.mem_cons, List.not_mem_nil, or_false] at hy
      rcases hy with rfl | rfl
      · exact hP.fo
      · have := hd.2.2
        rw [mem_dws] at this
        simp only [not_or, not_exists, not_and] at this
        exact this.2
    rw [a2 y (by simp only [List.mem_map, List.mem_range, not_exists, not_and]; exact fun i hi e => hn.2.1 i hi e.symm), g2 y hn.1 fun j hj _ => ⟨hn.2.1 j hj, hn.2.2 (j + 1) (by omega)⟩]
  have w3 : Wrote G cp P.w (fun y => y ∈ P.dws ∨ y = dst + 348) rp wp s s3 [] := by
    refine ⟨?_, fun y _ hn => k3 y hn⟩
    rw [List.length_nil, posB_zero hq, upd_id]
    exact h.moveD hG fun y hI hn => k3 y fun hy => hn (nI y hy hI)
  have b3 : BRep G cp ⟨rp, wp, s3⟩ s3 := by
    have := w3.1
    rwa [List.length_nil, posB_zero hq, upd_id] at this
  have hr' : Room L G (· ∈ P.dws) (wp P.w) 8 := fun k hk => ⟨(hr k hk).1, (hr k hk).2.1, (hr k hk).2.2.1, fun ha => (hr k hk).2.2.2 (.inl ha)⟩
  refine (outs_does hG hP (N := (number.valM s).toNat) 8 (by decide) b3 (fun j hj => ?_) hr').mono fun s4 w4 => ?_
  · rw [a1 _ (List.mem_map_of_mem (List.mem_range.2 hj)), BitVec.toNat_add, g1 j hj (by omega), show j + 8 - 8 = j by omega, show (48 : W).toNat = 48 from rfl]
    have := Nat.mod_lt ((number.valM s).toNat / 16 ^ j) (show 16 > 0 by decide)
    omega
  rw [← hex8_low] at w4
  have cs : ∀ {y}, P.cset y → y ∈ P.dws := fun h => mem_dws.2 (.inr (.inr (.inl h)))
  have l8 : (hex8 (number.valM s).toNat).length = 8 := by rw [hex8_low, low_len]
  refine ⟨trivial, ?_, ?_, ?_⟩
  · rw [runPA_nil]
    have : s4 (P.fe + 4) = s3 (P.fe + 4) := w4.keep hq (Nat.le_of_eq l8) hr' hP.iv.2 (fun ⟨j, hj, e⟩ => hP.fo.2.1 j hj e) mf
    rw [this, kk _ (by simp), v4]
  · rw [runPA_nil]
    have := Wrote.comp hq w3 (l2 := hex8 (number.valM s).toNat) (s2 := s4) (by
      rw [List.length_nil, posB_zero hq, upd_id]
      exact w4.mono fun y hy => .inl (cs hy))
    exact this
  · rw [runPA_nil, w4.keep hq (Nat.le_of_eq l8) hr hd.2.1 (fun h => hd.2.2 (cs h)) (.inr rfl), kk _ (by simp), vd]

/-- **C57 (`f_dbstr_addptr`).** For every number, the call writes its eight hexadecimal digits in upper case and a 0 from `dst` on; its result is `dst + 8`. -/
theorem C57_addptr (hG : G.Ok L br) (hP : P.Ok L G) {F : PrFn} {ret : Nat} (hF : F.Ok L G (P.sub L G F.dst (.var F.num) ret) P.dws) (hw : F.w = P.w) {back o : Nat} (hb : back < 2 ^ 32)
    (ho : DestU L G (F.own ++ P.dws) o) {d x : Src} (hd : ArgU L G F.own d) (hx : ArgU L G F.own x) (h : BRep G cp ⟨rp, wp, s⟩ s)
    (hr : Room L G (· ∈ F.own ++ P.dws) (d.valM s).toNat 9) :
    Does L (F.call L G (P.sub L G F.dst (.var F.num) ret) back o d x) s fun s' =>
      BRep G cp ⟨rp, upd wp P.w (posB (d.valM s).toNat 9), s'⟩ s' ∧ s' o = d.valM s + 8 ∧
      ∀ y, ¬ G.Int y → y ≠ o → y ∉ F.own → y ∉ P.dws → s' y = putBytes s (d.valM s).toNat (hex8 (x.valM s).toNat ++ [0]) y := by
  have vd := hF.vars F.dst (by simp)
  have vn := hF.vars F.num (by simp)
  have l8 : (hex8 (x.valM s).toNat).length = 8 := by rw [hex8_low, low_len]
  refine (PrFn.run hG hF hb ho hd hx h (l := hex8 (x.valM s).toNat) (by rw [l8]; exact hr) (inv := []) (rp' := rp) (by simp) ?_).mono ?_
  · intro s1 b1 e1 e2 e3
    rw [hw] at b1
    have := sub_spec hG hP (dst := F.dst) (number := .var F.num) (back := ret) ⟨vd.1, vd.2.1, fun ha => hF.sep _ ha (by simp [PrFn.own])⟩ ?_ b1 ?_
    · rw [valM_var, e2, e1] at this
      refine this.mono ?_
      rintro s2 ⟨g1, g2⟩
      rw [hw, l8]
      exact ⟨g1, g2, by simp⟩
    · rintro v ⟨⟩
      refine ⟨vn.1, fun e => hF.sep (F.num + 348) (mem_dws.2 (.inl e)) (by simp [PrFn.own]), fun e => ?_⟩
      have := hF.nd
      simp [PrFn.own, e] at this
    · rw [BHist.upd_self]
      intro k hk
      obtain ⟨r1, r2, r3, r4⟩ := hr k (by omega)
      refine ⟨r1, r2, r3, fun ha => r4 (List.mem_append.2 (ha.elim .inr fun e => .inl (by rw [e]; simp [PrFn.own])))⟩
  · rintro s' ⟨g1, g2, -, g4⟩
    rw [hw, l8] at g1
    rw [l8] at g2
    exact ⟨g1, g2, g4⟩

end HexPr

/-! ## Strings -/

/-- From `q` on there are the bytes `l`, none of them 0, and then 0. -/
def StrAt (s : Mem) : Nat → List (BitVec 8) → Prop
  | q, [] => byteAt s q = 0
  | q, b :: l => byteAt s q = b ∧ b ≠ 0 ∧ StrAt s (nextB q) l

theorem StrAt.congr {s s' : Mem} : ∀ {l : List (BitVec 8)} {q : Nat}, q < 2 ^ 32 → (∀ k ≤ l.length, byteAt s' (posB q k) = byteAt s (posB q k)) → StrAt s q l → StrAt s' q l
  | [], q, hq, h, hs => by
    have := h 0 (Nat.le_refl _)
    rw [posB_zero hq] at this
    exact this.trans hs
  | b :: l, q, hq, h, ⟨h1, h2, h3⟩ => by
    refine ⟨?_, h2, StrAt.congr (nextB_lt q) (fun k hk => ?_) h3⟩
    · have := h 0 (Nat.zero_le _)
      rw [posB_zero hq] at this
      exact this.trans h1
    · rw [posB_succ]; exact h (k + 1) (by simpa using hk)

/-- eudprint.py:16-56 `_add_str`: the variable `b`, the trigger `jump` and the last trigger `fe`; `wr` is where the triggers that write are; `k1`, `k2` are where reading and writing go on; the reader `r` and the writer
`w` (`br1` and `bw1`). -/
structure StrPr where
  b : Nat
  fe : Nat
  jump : Nat
  wr : Nat
  k1 : Nat
  k2 : Nat
  r : Nat
  w : Nat

namespace StrPr
variable (P : StrPr)

/-- eudprint.py:24: `b = br1.readbyte()` -/
def rd (L : Layout) (G : BCfg) : Stmt := (BOp.read P.r (P.b + 348)).stmt L G P.k1
/-- eudprint.py:29-30: `bw1.writebyte(b)`, `SetMemory(end + 348, Add, 1)` -/
def put (L : Layout) (G : BCfg) : Stmt := .seq ((BOp.writeV P.w (.var P.b)).stmt L G P.k2) (.trig [] [aMem (P.fe + 348) .add 1])

def jc : List PC := [cMem (P.b + 348) .exactly 0]
def ja : List PA := [aMem (P.jump + 4) .set (BitVec.ofNat 32 P.fe)]

/-- eudprint.py:23-31: runs of the loop.  `jump` goes on where its next pointer says. -/
inductive Loop (L : Layout) (G : BCfg) (P : StrPr) : Mem → Mem → Prop
  | stop {s s1 : Mem} (h1 : Exec L (P.rd L G) s .nrm s1) (hc : holdsAll s1 P.jc = true) : Loop L G P s (runPA P.ja s1)
  | more {s s1 s2 s' : Mem} (h1 : Exec L (P.rd L G) s .nrm s1) (hc : holdsAll s1 P.jc = false) (hj : s1 (P.jump + 4) = BitVec.ofNat 32 P.wr) (h2 : Exec L (P.put L G) s1 .nrm s2) (h : Loop L G P s2 s') : Loop L G P s s'

/-- eudprint.py:33-40: the last trigger. -/
def fin : List PA := [aAddHole (P.fe + 328), aMem (P.fe + 348) .set 0, aMem (P.jump + 4) .set (BitVec.ofNat 32 P.wr)]

/-- eudprint.py:45-56: the use of the subroutine, for the variable `dst`. -/
def sub (L : Layout) (G : BCfg) (dst back : Nat) : Stmt :=
  .prim (SubRel L P.fe back [⟨P.fe + 4, .set, .const (BitVec.ofNat 32 back)⟩, ⟨P.fe + 344, .set, .const (epd (dst + 348))⟩] (.prim (Loop L G P)) P.fin)

/-- All dwords of the subroutine. -/
def dws : List Nat := [P.fe + 4, P.fe + 344, P.fe + 348, P.jump + 4, P.b + 348]

structure Ok (L : Layout) (G : BCfg) : Prop where
  r : P.r < G.nr
  w : P.w < G.nw
  vb : VarU L G P.b
  cf : L.cell (P.fe + 4) ∧ L.cell (P.fe + 344) ∧ L.cell (P.fe + 348) ∧ L.cell (P.jump + 4)
  lt : P.k1 < 2 ^ 32 ∧ P.k2 < 2 ^ 32 ∧ P.fe < 2 ^ 32 ∧ P.wr < 2 ^ 32
  int : ∀ y ∈ P.dws, ¬ G.Int y
  nd : P.dws.Nodup

/-- The triggers of the loop, which begins at `st`. -/
theorem loop_code {L : Layout} {G : BCfg} (hw : L.Wf) {P : StrPr} (hP : P.Ok L G) {st : Nat} (h1 : ∃ r b k, Code L r b k (P.rd L G) st P.jump) (h2 : ∃ r b k, Code L r b k (P.put L G) P.wr st)
    (hj : (⟨P.jump, ⟨P.jc.map PC.c, P.ja.map PA.a⟩, none, false⟩ : SBlk) ∈ L.P.blks) (r b k : Nat) : Code L r b k (.prim (Loop L G P)) st P.fe := by
  obtain ⟨_, _, _, h1⟩ := h1
  obtain ⟨_, _, _, h2⟩ := h2
  refine Code.prim fun s s' h => ?_
  have hc : ∀ s, ∀ p ∈ P.jc, p.Ok L s := by
    intro s
    simp only [jc, List.mem_singleton, forall_eq]
    exact cMem_ok (cell_val hw hP.vb.1) _ _ _
  have ha : ∀ s, ActsOk L P.ja s := fun s => actsOk_mem hP.cf.2.2.2 trivial
  induction h with
  | @stop s s1 e1 e2 =>
    have c1 : L.Runs s st s1 P.jump := C25_structured hw e1 h1
    have c2 := Layout.Runs.dyn (s := s1) hw hj hP.cf.2.2.2.2 ⟨⟨rfl, rfl, rfl⟩, trivial⟩ ⟨⟨rfl, rfl, rfl⟩, trivial⟩ (hc s1) (fun _ => ha s1)
    rw [if_pos e2] at c2
    have : runPA P.ja s1 (P.jump + 4) = BitVec.ofNat 32 P.fe := by simp only [ja, runPA_cons, runPA_nil, aMem_run, arith, set_eq]
    rw [this, BitVec.toNat_ofNat, Nat.mod_eq_of_lt hP.lt.2.2.1] at c2
    exact c1.trans c2
  | @more s s1 s2 s' e1 e2 e3 e4 _ ih =>
    have c1 : L.Runs s st s1 P.jump := C25_structured hw e1 h1
    have c2 := Layout.Runs.dyn (s := s1) hw hj hP.cf.2.2.2.2 ⟨⟨rfl, rfl, rfl⟩, trivial⟩ ⟨⟨rfl, rfl, rfl⟩, trivial⟩ (hc s1) (fun _ => ha s1)
    rw [if_neg (by rw [e2]; decide), e3, BitVec.toNat_ofNat, Nat.mod_eq_of_lt hP.lt.2.2.2] at c2
    exact (c1.trans c2).trans (Layout.Runs.trans (C25_structured hw e4 h2) ih)

variable {P} {L : Layout} {G : BCfg} {br : Nat → Nat} {cp : W}

/-- What the loop changes. -/
def scr (P : StrPr) (y : Nat) : Prop := y ∈ [P.fe + 348, P.jump + 4, P.b + 348]

theorem loop_does (hG : G.Ok L br) (hP : P.Ok L G) : ∀ {l : List (BitVec 8)} {s : Mem} {rp wp : Nat → Nat}, BRep G cp ⟨rp, wp, s⟩ s → StrAt s (rp P.r) l → s (P.jump + 4) = BitVec.ofNat 32 P.wr →
    (∀ k ≤ l.length, RdB L G P.dws (posB (rp P.r) k)) → Room L G (· ∈ P.dws) (wp P.w) l.length → (∀ i j, i < j → j ≤ l.length → posB (wp P.w) i ≠ posB (rp P.r) j) →
    Does L (.prim (Loop L G P)) s fun s' => Wrote G cp P.w P.scr (upd rp P.r (posB (rp P.r) (l.length + 1))) wp s s' l ∧ s' (P.fe + 348) = s (P.fe + 348) + BitVec.ofNat 32 l.length := by
  have nd := hP.nd
  simp only [dws, List.nodup_cons, List.mem_cons, not_or, List.not_mem_nil, not_false_eq_true, List.nodup_nil, and_true, or_false] at nd
  have cb := cell_val hG.wf hP.vb.1
  have ijp : ¬ G.Int (P.jump + 4) := hP.int _ (by simp [dws])
  have ife : ¬ G.Int (P.fe + 348) := hP.int _ (by simp [dws])
  intro l
  induction l with
  | nil =>
    intro s rp wp h hs hj hR _ _
    have hq := (h.wr _ hP.w).2.1
    have hrq := (h.rd _ hP.r).2
    obtain ⟨r1, r2, -⟩ := hR 0 (Nat.le_refl _)
    simp only [posB_zero hrq] at r1 r2
    obtain ⟨s1, e1, g1⟩ := C37_step hG h hP.lt.1 (.read P.r (P.b + 348)) ⟨hP.r, cb, hP.vb.2.2, hP.vb.2.1, r1, r2⟩
    have vis := g1.vis
    have g1' := g1.here
    simp only [BOp.spec] at g1' vis
    have hbv : s1 (P.b + 348) = 0 := by rw [vis _ hP.vb.2.1, set_eq, show byteAt s (rp P.r) = 0 from hs]; rfl
    refine Does.prim (s' := runPA P.ja s1) (Loop.stop e1 ?_) ?_
    · simp only [jc, holdsAll_cons, holdsAll_nil, Bool.and_true, cMem_holds, compare, hbv, decide_true]
    · simp only [ja, runPA_cons, runPA_nil, aMem_run, arith]
      refine ⟨⟨?_, fun y hy hn => ?_⟩, ?_⟩
      · rw [List.length_nil, posB_zero hq, upd_id, Nat.zero_add, ← posB_next, posB_zero hrq]
        exact g1'.move fun y hy => set_ne fun e => ijp (e ▸ hy)
      · simp only [scr, List.mem_cons, List.not_mem_nil, or_false, not_or] at hn
        rw [set_ne hn.2.1, vis y hy, set_ne hn.2.2]; rfl
      · rw [set_ne (by grind), vis _ ife, set_ne (by grind)]; simp
  | cons x l ih =>
    intro s rp wp h hs hj hR hr ho
    obtain ⟨x1, x2, x3⟩ := hs
    have hq := (h.wr _ hP.w).2.1
    have hrq := (h.rd _ hP.r).2
    simp only at hrq hq
    obtain ⟨r1, r2, -⟩ := hR 0 (Nat.zero_le _)
    simp only [posB_zero hrq] at r1 r2
    obtain ⟨s1, e1, g1⟩ := C37_step hG h hP.lt.1 (.read P.r (P.b + 348)) ⟨hP.r, cb, hP.vb.2.2, hP.vb.2.1, r1, r2⟩
    have vis := g1.vis
    have g1' := g1.here
    simp only [BOp.spec] at g1' vis
    have hbv : s1 (P.b + 348) = x.setWidth 32 := by rw [vis _ hP.vb.2.1, set_eq, x1]
    have hb8 : (s1 (P.b + 348)).setWidth 8 = x := by
      rw [hbv]; apply BitVec.eq_of_toNat_eq; rw [BitVec.toNat_setWidth, BitVec.toNat_setWidth]; have := x.isLt; omega
    have w1 : ∀ y, ¬ G.Int y → ¬ P.scr y → s1 y = s y := fun y hy hn => by
      simp only [scr, List.mem_cons, List.not_mem_nil, or_false, not_or] at hn
      rw [vis y hy, set_ne hn.2.2]
    obtain ⟨s2, e2, g2, g3⟩ : Does L (P.put L G) s1 fun s2 => Wrote G cp P.w (fun y => y = P.fe + 348) (upd rp P.r (nextB (rp P.r))) wp s1 s2 [x] ∧ s2 (P.fe + 348) = s1 (P.fe + 348) + 1 := by
      refine Does.seq ((wr_does (w := P.w) (S := (· ∈ P.dws)) hG hP.w g1' (x := .var P.b) hP.vb.src hP.lt.2.1 (hr.le (by simp))).mono ?_)
      rw [valM_var, hb8]
      intro s2 g2
      have e : s2 (P.fe + 348) = s1 (P.fe + 348) := g2.keep (L := L) (n := 1) (S' := (· ∈ P.dws)) hq (by simp) (hr.le (by simp)) ife (fun h => h) (by simp [dws])
      refine Does.acts (actsOk_mem hP.cf.2.2.1 trivial) ?_
      simp only [runPA_cons, runPA_nil, aMem_run, arith]
      refine ⟨(g2.mono (S' := fun y => y = P.fe + 348) fun y hy => hy.elim).loc hG (T := [P.fe + 348]) ((Only.refl _ _).set (by simp) _) (by simp) ?_, by rw [set_eq, e]⟩
      intro y hy hI
      rw [List.mem_singleton.1 hy] at hI
      exact absurd hI ife
    have k2 : ∀ y ∈ P.dws, ¬ G.Int y → y ≠ P.fe + 348 → s2 y = s1 y := fun y hy hI hn => g2.keep (L := L) (n := 1) (S' := (· ∈ P.dws)) hq (by simp) (hr.le (by simp)) hI hn hy
    have g2' := g2.1
    rw [List.length_singleton] at g2'
    have p1 : posB (wp P.w) 1 = nextB (wp P.w) := by rw [← posB_next (wp P.w) 0, posB_zero hq]
    have u1 : (upd rp P.r (nextB (rp P.r))) P.r = nextB (rp P.r) := BHist.upd_self _ _ _
    have j1 : s1 (P.jump + 4) = BitVec.ofNat 32 P.wr := by rw [vis _ ijp, set_ne (by grind), hj]
    have key := ih g2' ?_ ?_ ?_ ?_ ?_
    · obtain ⟨s', l1, g4, g5⟩ := key
      obtain ⟨_, h4⟩ : ∃ h : Loop L G P s2 s', True := by
        cases l1 with
        | prim h => exact ⟨h, trivial⟩
      refine Does.prim (s' := s') (Loop.more e1 ?_ j1 e2 ‹_›) ?_
      · simp only [jc, holdsAll_cons, holdsAll_nil, Bool.and_true, cMem_holds, compare, hbv, decide_eq_false_iff_not]
        rw [show (0 : W) = (0 : BitVec 8).setWidth 32 from rfl, setW_inj]
        exact x2
      · rw [u1, upd_upd] at g4
        refine ⟨⟨?_, fun y hy hn => ?_⟩, ?_⟩
        · have := g4.1
          rw [BHist.upd_self, upd_upd, posB_add, ← posB_zero hrq, posB_next, posB_add] at this
          rw [List.length_cons]
          rwa [show 0 + 1 + (l.length + 1) = l.length + 1 + 1 by omega, Nat.add_comm 1 l.length] at this
        · rw [g4.2 y hy hn, BHist.upd_self, putBytes, p1]
          refine putBytes_congr ?_
          have : s2 y = putBytes s1 (wp P.w) [x] y := g2.2 y hy (fun e => hn (by simp [scr, e]))
          rw [this]
          exact putBytes_congr (l := [x]) (w1 y hy hn)
        · rw [g5, g3, vis _ ife, set_ne (by grind), List.length_cons, BitVec.ofNat_add, BitVec.add_assoc, BitVec.add_comm (BitVec.ofNat 32 l.length)]; rfl
    · rw [u1]
      refine StrAt.congr (nextB_lt _) (fun k hk => ?_) x3
      rw [posB_succ]
      obtain ⟨-, q1, q2⟩ := hR (k + 1) (by simpa using hk)
      have nf : ∀ z ∈ P.dws, posB (rp P.r) (k + 1) / 4 * 4 ≠ z := fun z hz e => q2 (e ▸ hz)
      have b2 : byteAt s2 (posB (rp P.r) (k + 1)) = byteAt (putByte s1 (wp P.w) x) (posB (rp P.r) (k + 1)) := byteAt_congr (g2.2 _ q1 (nf _ (by simp [dws])))
      have ne := ho 0 (k + 1) (by omega) (by simpa using hk)
      rw [posB_zero hq] at ne
      rw [b2, byteAt_put, if_neg (Ne.symm ne)]
      refine byteAt_congr (w1 _ q1 ?_)
      simp only [scr, List.mem_cons, List.not_mem_nil, or_false, not_or]
      exact ⟨nf _ (by simp [dws]), nf _ (by simp [dws]), nf _ (by simp [dws])⟩
    · rw [k2 _ (by simp [dws]) ijp (by grind), j1]
    · intro k hk
      rw [u1, posB_succ]
      exact hR (k + 1) (by simpa using hk)
    · rw [BHist.upd_self]
      exact hr.at (by simp; omega)
    · intro i j h1 h2
      rw [BHist.upd_self, u1, posB_succ, posB_add, Nat.add_comm 1 i]
      exact ho (i + 1) (j + 1) (by omega) (by simpa using h2)

/-- What the subroutine does: it copies the string without its 0 and adds its length to `dst`. -/
theorem sub_spec (hG : G.Ok L br) (hP : P.Ok L G) {rp wp : Nat → Nat} {s : Mem} {dst back : Nat} (hd : dst ∈ L.P.vars ∧ EpdOK (dst + 348) ∧ ¬ G.Int (dst + 348) ∧ dst + 348 ∉ P.dws)
    (h : BRep G cp ⟨rp, wp, s⟩ s) (h0 : s (P.fe + 348) = 0) (hj : s (P.jump + 4) = BitVec.ofNat 32 P.wr) {l : List (BitVec 8)} (hl : StrAt s (rp P.r) l)
    (hR : ∀ k ≤ l.length, RdB L G P.dws (posB (rp P.r) k)) (hr : Room L G (fun y => y ∈ P.dws ∨ y = dst + 348) (wp P.w) l.length)
    (ho : ∀ i j, i < j → j ≤ l.length → posB (wp P.w) i ≠ posB (rp P.r) j) :
    Does L (P.sub L G dst back) s fun s' => Wrote G cp P.w (fun y => y ∈ P.dws ∨ y = dst + 348) (upd rp P.r (posB (rp P.r) (l.length + 1))) wp s s' l ∧
      s' (dst + 348) = s (dst + 348) + BitVec.ofNat 32 l.length ∧ s' (P.fe + 348) = 0 ∧ s' (P.jump + 4) = BitVec.ofNat 32 P.wr := by
  have hq := (h.wr _ hP.w).2.1
  have hrq := (h.rd _ hP.r).2
  simp only at hq hrq
  have nd := hP.nd
  have i1 : ¬ G.Int (P.fe + 4) := hP.int _ (by simp [dws])
  have i2 : ¬ G.Int (P.fe + 344) := hP.int _ (by simp [dws])
  have i3 : ¬ G.Int (P.fe + 348) := hP.int _ (by simp [dws])
  have i4 : ¬ G.Int (P.jump + 4) := hP.int _ (by simp [dws])
  have m3 : P.fe + 348 ∈ P.dws := by simp [dws]
  have hd4 := hd.2.2.2
  simp only [dws, List.nodup_cons, List.mem_cons, not_or, List.not_mem_nil, not_false_eq_true, List.nodup_nil, and_true, or_false] at nd hd4
  refine sub_does (by simpa using ⟨hP.cf.1, hP.cf.2.1⟩) (by simp) ?_
  simp only [runAsg_cons, runAsg_nil, arith, Src.valM_const]
  generalize hs1 : (s.set (P.fe + 4) (BitVec.ofNat 32 back)).set (P.fe + 344) (epd (dst + 348)) = s1
  have o1 : Only [P.fe + 4, P.fe + 344] s s1 := by rw [← hs1]; exact ((Only.refl _ s).set (by simp) _).set (by simp) _
  have v4 : s1 (P.fe + 4) = BitVec.ofNat 32 back := by rw [← hs1, set_ne (by omega), set_eq]
  have v344 : s1 (P.fe + 344) = epd (dst + 348) := by rw [← hs1, set_eq]
  have v348 : s1 (P.fe + 348) = 0 := by rw [← hs1, set_ne (by omega), set_ne (by omega), h0]
  have vj : s1 (P.jump + 4) = BitVec.ofNat 32 P.wr := by rw [← hs1, set_ne (by grind), set_ne (by grind), hj]
  have vd : s1 (dst + 348) = s (dst + 348) := by rw [← hs1, set_ne (by grind), set_ne (by grind)]
  have w1 : Wrote G cp P.w (fun y => y ∈ P.dws ∨ y = dst + 348) rp wp s s1 [] := by
    refine (Wrote.refl h hq).loc hG o1 ?_ ?_
    · simp [dws]
    · simp only [List.mem_cons, List.not_mem_nil, or_false, forall_eq_or_imp, forall_eq]
      exact ⟨fun hI => absurd hI i1, fun hI => absurd hI i2⟩
  have b1 : BRep G cp ⟨rp, wp, s1⟩ s1 := by
    have := w1.1
    rwa [List.length_nil, posB_zero hq, upd_id] at this
  have hr' : Room L G (· ∈ P.dws) (wp P.w) l.length := fun k hk => ⟨(hr k hk).1, (hr k hk).2.1, (hr k hk).2.2.1, fun ha => (hr k hk).2.2.2 (.inl ha)⟩
  have hl1 : StrAt s1 (rp P.r) l := hl.congr hrq fun k hk => byteAt_congr (o1 _ fun hm => (hR k hk).2.2 (by
    simp only [List.mem_cons, List.not_mem_nil, or_false, dws] at hm ⊢; grind))
  refine (loop_does hG hP b1 hl1 vj hR hr' ho).mono ?_
  rintro s2 ⟨g1, g2⟩
  have k1 : ∀ y ∈ P.dws, ¬ G.Int y → ¬ P.scr y → s2 y = s1 y := fun y hy hI hn => g1.keep (L := L) hq (Nat.le_refl _) hr' hI hn hy
  have sc : ∀ y, P.scr y → y ∈ P.dws := fun y hy => by simp only [scr, dws, List.mem_cons, List.not_mem_nil, or_false] at hy ⊢; grind
  have kd : s2 (dst + 348) = s (dst + 348) := by
    rw [g1.keep (L := L) hq (Nat.le_refl _) (S' := fun y => y ∈ P.dws ∨ y = dst + 348) hr hd.2.2.1 (fun e => hd.2.2.2 (sc _ e)) (.inr rfl), vd]
  have n4 : ¬ P.scr (P.fe + 4) := by simp only [scr, List.mem_cons, List.not_mem_nil, or_false]; grind
  have n344 : ¬ P.scr (P.fe + 344) := by simp only [scr, List.mem_cons, List.not_mem_nil, or_false]; grind
  obtain ⟨r1, r2⟩ := aAddHole_spec (L := L) (p := P.fe + 328) (d := dst + 348) (s := s2) (ps := [aMem (P.fe + 348) .set 0, aMem (P.jump + 4) .set (BitVec.ofNat 32 P.wr)])
    (by rw [Nat.add_assoc, show 328 + 16 = 344 from rfl, k1 _ (by simp [dws]) i2 n344, v344]) hd.2.1 (cell_val hG.wf hd.1) (actsOk_mem hP.cf.2.2.1 (actsOk_mem hP.cf.2.2.2 trivial))
  refine ⟨r2, ?_⟩
  simp only [fin, runPA_cons, runPA_nil, r1, aMem_run, arith]
  rw [Nat.add_assoc, show 328 + 20 = 348 from rfl]
  refine ⟨?_, ?_, ?_, ?_, by rw [set_eq]⟩
  · rw [set_ne (by grind), set_ne (by omega), set_ne (by grind), k1 _ (by simp [dws]) i1 n4, v4]
  · have w2 : Wrote G cp P.w (fun y => y ∈ P.dws ∨ y = dst + 348) (upd rp P.r (posB (rp P.r) (l.length + 1))) wp s s2 l := by
      have := Wrote.comp hq w1 (l2 := l) (s2 := s2) (rp := upd rp P.r (posB (rp P.r) (l.length + 1))) (by
        rw [List.length_nil, posB_zero hq, upd_id]
        exact g1.mono fun y hy => .inl (sc y hy))
      exact this
    refine w2.loc hG (T := [dst + 348, P.fe + 348, P.jump + 4]) ((((Only.refl _ _).set (by simp) _).set (by simp) _).set (by simp) _) ?_ ?_
    · simp [dws]
    · simp only [List.mem_cons, List.not_mem_nil, or_false, forall_eq_or_imp, forall_eq]
      exact ⟨fun hI => absurd hI hd.2.2.1, fun hI => absurd hI i3, fun hI => absurd hI i4⟩
  · rw [set_ne (by grind), set_ne (by grind), set_eq, kd, g2, v348, show (0 : W) = 0#32 from rfl, BitVec.zero_add]
  · rw [set_ne (by grind), set_eq]

/-- eudprint.py:69-70: `br1.seekoffset(src)`, `_add_str(dst)`. -/
def mid (P : StrPr) (L : Layout) (G : BCfg) (F : PrFn) (k3 ret : Nat) : Stmt := .seq ((BOp.rseekV P.r (.var F.num)).stmt L G k3) (P.sub L G F.dst ret)

/-- **C57 (`f_dbstr_addstr`).** For every string, whatever its length and the alignment of source and destination, the call copies it with its 0 to `dst`; its result is `dst` and the length of the string.  The
destination may overlap what was read before, but not what is read later. -/
theorem C57_addstr (hG : G.Ok L br) (hP : P.Ok L G) {rp wp : Nat → Nat} {s : Mem} {F : PrFn} {k3 ret : Nat} (hF : F.Ok L G (P.mid L G F k3 ret) P.dws) (hw : F.w = P.w) {back o : Nat} (hk3 : k3 < 2 ^ 32) (hb : back < 2 ^ 32)
    (ho : DestU L G (F.own ++ P.dws) o) {d x : Src} (hd : ArgU L G F.own d) (hx : ArgU L G F.own x) (h : BRep G cp ⟨rp, wp, s⟩ s) (h0 : s (P.fe + 348) = 0) (hj : s (P.jump + 4) = BitVec.ofNat 32 P.wr)
    {l : List (BitVec 8)} (hl : StrAt s (x.valM s).toNat l) (hR : ∀ k ≤ l.length, RdB L G (F.own ++ P.dws) (posB (x.valM s).toNat k)) (hr : Room L G (· ∈ F.own ++ P.dws) (d.valM s).toNat (l.length + 1))
    (hov : ∀ i j, i < j → j ≤ l.length → posB (d.valM s).toNat i ≠ posB (x.valM s).toNat j) :
    Does L (F.call L G (P.mid L G F k3 ret) back o d x) s fun s' =>
      BRep G cp ⟨upd rp P.r (posB (x.valM s).toNat (l.length + 1)), upd wp P.w (posB (d.valM s).toNat (l.length + 1)), s'⟩ s' ∧ s' o = d.valM s + BitVec.ofNat 32 l.length ∧
      (s' (P.fe + 348) = 0 ∧ s' (P.jump + 4) = BitVec.ofNat 32 P.wr) ∧ ∀ y, ¬ G.Int y → y ≠ o → y ∉ F.own → y ∉ P.dws → s' y = putBytes s (d.valM s).toNat (l ++ [0]) y := by
  have vd := hF.vars F.dst (by simp)
  have vn := hF.vars F.num (by simp)
  have hxq : (x.valM s).toNat < 2 ^ 32 := (x.valM s).isLt
  have m3 : P.fe + 348 ∈ P.dws := by simp [dws]
  have m4 : P.jump + 4 ∈ P.dws := by simp [dws]
  refine (PrFn.run hG hF hb ho hd hx h hr (inv := [(P.fe + 348, 0), (P.jump + 4, BitVec.ofNat 32 P.wr)]) (rp' := upd rp P.r (posB (x.valM s).toNat (l.length + 1))) ?_ ?_).mono ?_
  · simp only [List.mem_cons, List.not_mem_nil, or_false, forall_eq_or_imp, forall_eq]
    exact ⟨⟨m3, hP.int _ m3, h0⟩, m4, hP.int _ m4, hj⟩
  · intro s1 b1 e1 e2 e3
    rw [hw] at b1
    refine Does.seq ((C37_step hG b1 hk3 (.rseekV P.r (.var F.num)) ⟨hP.r, vn.src⟩).mono fun s2 h2 => ?_)
    have v2 : ∀ y, ¬ G.Int y → s2 y = s1 y := h2.vis
    have h2' := h2.here
    simp only [BOp.spec, valM_var, e2] at h2'
    have c : ∀ y ∈ P.dws, s2 y = s y := fun y hy => by rw [v2 y (hP.int y hy), e3 y (hP.int y hy) (hF.sep y hy)]
    have := sub_spec hG hP (dst := F.dst) (back := ret) (l := l) ⟨vd.1, vd.2.2, vd.2.1, fun ha => hF.sep _ ha (by simp [PrFn.own])⟩ h2' (by rw [c _ m3, h0]) (by rw [c _ m4, hj]) ?_ ?_ ?_ ?_
    · rw [BHist.upd_self, upd_upd] at this
      refine this.mono ?_
      rintro s3 ⟨g1, g2, g3, g4⟩
      rw [v2 _ vd.2.1, e1] at g2
      rw [hw]
      refine ⟨⟨g1.1, fun y hy hn => ?_⟩, g2, ?_⟩
      · rw [g1.2 y hy hn]; exact putBytes_congr (v2 y hy)
      · simp only [List.mem_cons, List.not_mem_nil, or_false, forall_eq_or_imp, forall_eq]
        exact ⟨g3, g4⟩
    · rw [BHist.upd_self]
      refine hl.congr hxq fun k hk => byteAt_congr ?_
      obtain ⟨-, q1, q2⟩ := hR k hk
      rw [v2 _ q1, e3 _ q1 fun hm => q2 (List.mem_append_left _ hm)]
    · rw [BHist.upd_self]
      exact fun k hk => ⟨(hR k hk).1, (hR k hk).2.1, fun hm => (hR k hk).2.2 (List.mem_append_right _ hm)⟩
    · rw [BHist.upd_self]
      intro k hk
      obtain ⟨r1, r2, r3, r4⟩ := hr k (by omega)
      exact ⟨r1, r2, r3, fun ha => r4 (List.mem_append.2 (ha.elim .inr fun e => .inl (by rw [e]; simp [PrFn.own])))⟩
    · rw [BHist.upd_self, BHist.upd_self]; exact hov
  · rintro s' ⟨g1, g2, g3, g4⟩
    rw [hw] at g1
    simp only [List.mem_cons, List.not_mem_nil, or_false, forall_eq_or_imp, forall_eq] at g3
    exact ⟨g1, g2, g3, g4⟩

end StrPr

end Eud.SC
