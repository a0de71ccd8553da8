import Verif.Lib.PrintAll
/-
`f_dbstr_print` of any list of literals, numbers, pointers and strings (C58): string/eudprint.py.
-/

namespace Eud.SC

namespace StrPr
variable {P : StrPr} {L : Layout} {G : BCfg} {br : Nat → Nat} {cp : W}

/-- eudprint.py:45-56 with `operations`, which seek `br1` (byterw.py:42-50, 73-80): to the byte `i` of the dword `e`.  The places differ, so the order of the assignments does not matter. -/
def subE (P : StrPr) (L : Layout) (G : BCfg) (dst : Nat) (e : Src) (i back : Nat) : Stmt :=
  .prim (SubRel L P.fe back [⟨P.fe + 4, .set, .const (BitVec.ofNat 32 back)⟩, ⟨P.fe + 344, .set, .const (epd (dst + 348))⟩, ⟨(G.R P.r).rd + 4, .set, .const (BitVec.ofNat 32 ((G.R P.r).cs i))⟩, ⟨(G.R P.r).rd + 348, .set, e⟩]
    (.prim (Loop L G P)) P.fin)

theorem subE_spec (hG : G.Ok L br) (hP : P.Ok L G) {rp wp : Nat → Nat} {s : Mem} {dst i back : Nat} {e : Src} (hi : i < 4) (he : SrcB L G e) (hv : ∀ v, e = .var v → v + 348 ∉ P.dws)
    (hd : dst ∈ L.P.vars ∧ EpdOK (dst + 348) ∧ ¬ G.Int (dst + 348) ∧ dst + 348 ∉ P.dws)
    (h : BRep G cp ⟨rp, wp, s⟩ s) (h0 : s (P.fe + 348) = 0) (hj : s (P.jump + 4) = BitVec.ofNat 32 P.wr) {l : List (BitVec 8)} (hl : StrAt s (epdAddr (e.valM s) + i) l)
    (hR : ∀ k ≤ l.length, RdB L G P.dws (posB (epdAddr (e.valM s) + i) k)) (hr : Room L G (fun y => y ∈ P.dws ∨ y = dst + 348) (wp P.w) l.length)
    (ho : ∀ i' j, i' < j → j ≤ l.length → posB (wp P.w) i' ≠ posB (epdAddr (e.valM s) + i) j) :
    Does L (P.subE L G dst e i back) s fun s' => (∃ rp', Wrote G cp P.w (fun y => y ∈ P.dws ∨ y = dst + 348) rp' wp s s' l) ∧
      s' (dst + 348) = s (dst + 348) + BitVec.ofNat 32 l.length ∧ s' (P.fe + 348) = 0 ∧ s' (P.jump + 4) = BitVec.ofNat 32 P.wr := by
  have rk := hG.rd P.r hP.r
  have i4 : G.Int ((G.R P.r).rd + 4) := ⟨.rd P.r, hP.r, by simp [BCfg.own]⟩
  have i348 : G.Int ((G.R P.r).rd + 348) := ⟨.rd P.r, hP.r, by simp [BCfg.own]⟩
  obtain ⟨s1, x1, x2⟩ := C37_step hG h (n := 0) (by decide) (.rseekE P.r e i) ⟨hP.r, he, hi⟩
  have e1 : s1 = runAsg [⟨(G.R P.r).rd + 4, .set, .const (BitVec.ofNat 32 ((G.R P.r).cs i))⟩, ⟨(G.R P.r).rd + 348, .set, e⟩] s := by
    simp only [BOp.stmt, brSeekEpd] at x1
    cases x1; rfl
  have v1 : ∀ y, ¬ G.Int y → s1 y = s y := x2.vis
  have b1 := x2.here
  simp only [BOp.spec] at b1
  have m3 : P.fe + 348 ∈ P.dws := by simp [dws]
  have m4 : P.jump + 4 ∈ P.dws := by simp [dws]
  have hlt : epdAddr (e.valM s) + i < 2 ^ 32 := by
    have := (b1.rd P.r hP.r).2
    simpa only [BHist.upd_self] using this
  have key := sub_spec hG hP (dst := dst) (back := back) (l := l) hd b1 (by rw [v1 _ (hP.int _ m3), h0]) (by rw [v1 _ (hP.int _ m4), hj]) ?_ ?_ hr ?_
  · obtain ⟨s', z1, z2, z3, z4, z5⟩ := key
    refine ⟨s', ?_, ⟨_, z2.1, fun y hy hn => ?_⟩, by rw [z3, v1 _ hd.2.2.1], z4, z5⟩
    · unfold sub at z1
      cases z1 with
      | prim hz =>
        obtain ⟨s2, -, q2, q3, q4, q5⟩ := hz
        have ee : runAsg [⟨P.fe + 4, .set, .const (BitVec.ofNat 32 back)⟩, ⟨P.fe + 344, .set, .const (epd (dst + 348))⟩, ⟨(G.R P.r).rd + 4, .set, .const (BitVec.ofNat 32 ((G.R P.r).cs i))⟩, ⟨(G.R P.r).rd + 348, .set, e⟩] s =
            runAsg [⟨P.fe + 4, .set, .const (BitVec.ofNat 32 back)⟩, ⟨P.fe + 344, .set, .const (epd (dst + 348))⟩] s1 := by
          have n1 : P.fe + 4 ≠ (G.R P.r).rd + 4 := fun q => hP.int (P.fe + 4) (by simp [dws]) (q ▸ i4)
          have n2 : P.fe + 4 ≠ (G.R P.r).rd + 348 := fun q => hP.int (P.fe + 4) (by simp [dws]) (q ▸ i348)
          have n3 : P.fe + 344 ≠ (G.R P.r).rd + 4 := fun q => hP.int (P.fe + 344) (by simp [dws]) (q ▸ i4)
          have n4 : P.fe + 344 ≠ (G.R P.r).rd + 348 := fun q => hP.int (P.fe + 344) (by simp [dws]) (q ▸ i348)
          have ev : ∀ a b c : W, Src.valM (((s.set (P.fe + 4) a).set (P.fe + 344) b).set ((G.R P.r).rd + 4) c) e = Src.valM (s.set ((G.R P.r).rd + 4) c) e := by
            intro a b c
            cases e with
            | const x => rfl
            | var v =>
              have := hv v rfl
              simp only [dws, List.mem_cons, List.not_mem_nil, or_false, not_or] at this
              have nv : v + 348 ≠ (G.R P.r).rd + 4 := fun q => (he v rfl).2 (q ▸ i4)
              rw [valM_var, valM_var, set_ne nv, set_ne nv, set_ne this.2.1, set_ne this.1]
          rw [e1]
          simp only [runAsg_cons, runAsg_nil, arith, Src.valM_const, ev]
          generalize Src.valM (s.set ((G.R P.r).rd + 4) (BitVec.ofNat 32 ((G.R P.r).cs i))) e = c
          funext y
          simp only [get_set]
          grind
        refine .prim ⟨s2, .asg ?_ ?_, by rw [ee]; exact q2, q3, q4, q5⟩
        · simp only [List.mem_cons, List.not_mem_nil, or_false, forall_eq_or_imp, forall_eq]
          exact ⟨hP.cf.1, hP.cf.2.1, rk.c4, rk.c348⟩
        · simp only [List.mem_cons, List.not_mem_nil, or_false, forall_eq_or_imp, forall_eq]
          exact ⟨nofun, nofun, nofun, fun v hv => (he v hv).1⟩
    · rw [z2.2 y hy hn]
      exact putBytes_congr (v1 y hy)
  · rw [BHist.upd_self]
    exact hl.congr hlt fun k hk => byteAt_congr (v1 _ (hR k hk).2.1)
  · rw [BHist.upd_self]; exact hR
  · rw [BHist.upd_self]; exact ho

end StrPr

/-! ## Lists of things -/

/-- Something that is printed (eudprint.py:230-264), with the places where the triggers go on: a literal whose last byte is at `p`, a number, a number in hexadecimal (`hptr`), a string at the byte `i` of a dword (`Db`, `epd2s`, constant `ptr2s`),
a string whose address is in a variable (`ptr2s`). -/
inductive PItem where
  | lit (p : Nat) (a k1 k2 : W) (back : Nat)
  | dec (x : Src) (back : Nat)
  | hex (x : Src) (back : Nat)
  | str (e : Src) (i back : Nat)
  | strV (v k3 back : Nat)

/-- The parts of `f_dbstr_print`: its subroutines, the variable `ret`, the key of the literals. -/
structure PrintCfg where
  D : DecPr
  H : HexPr
  S : StrPr
  T : LitPr
  ret : Nat
  w : Nat
  key : BitVec 8

namespace PrintCfg
variable (C : PrintCfg)

/-- eudprint.py:235-261 -/
def item (L : Layout) (G : BCfg) : PItem → Stmt
  | .lit p a k1 k2 back => C.T.sub L G p a k1 k2 back
  | .dec x back => C.D.sub L G C.ret x back
  | .hex x back => C.H.sub L G C.ret x back
  | .str e i back => C.S.subE L G C.ret e i back
  | .strV v k3 back => .seq ((BOp.rseekV C.S.r (.var v)).stmt L G k3) (C.S.sub L G C.ret back)

/-- What is added to `static_len` (eudprint.py:247), for a text of `n` bytes. -/
def static : PItem → Nat → Nat
  | .lit .., n => n
  | _, _ => 0

/-- eudprint.py:227 `bw1.seekoffset(dst)` -/
def seek (L : Layout) (G : BCfg) (k1 : Nat) : Src → Stmt
  | .const p => (BOp.wseekC C.w p.toNat).stmt L G k1
  | .var v => (BOp.wseekV C.w (.var v)).stmt L G k1

/-- eudprint.py:225-272: the triggers for the things, with their texts; `k1`, `k2` are where seeking and the last write go on. -/
def print (L : Layout) (G : BCfg) (dst : Src) (ps : List (PItem × List (BitVec 8))) (eos : Bool) (k1 k2 : Nat) : Stmt :=
  let n := (ps.map fun p => static p.1 p.2.length).sum
  .seq (.asg [⟨C.ret + 348, .set, dst⟩]) (.seq (C.seek L G k1 dst)
    (.seq (.seqs (ps.map fun p => C.item L G p.1)) (.seq (if n = 0 then .skip else .asg [⟨C.ret + 348, .add, .const (BitVec.ofNat 32 n)⟩]) (if eos then (BOp.writeC C.w 0).stmt L G k2 else .skip))))

/-- The variable that is read first. -/
def src : PItem → Src
  | .lit .. => .const 0
  | .dec x _ => x
  | .hex x _ => x
  | .str e _ _ => e
  | .strV v _ _ => .var v

/-- The text of a thing in a memory. -/
def At (s : Mem) : PItem → List (BitVec 8) → Prop
  | .lit p a k1 k2 _, l => LitPr.RevAt s p C.key l ∧ 0 < l.length ∧ p < 2 ^ 32 ∧ k1.setWidth 8 = C.key ^^^ C.T.key1 ∧ k2.setWidth 8 = C.key ^^^ C.T.key2 ∧ CountOk l.length a.toNat
  | .dec x _, l => l = decimal (x.valM s).toNat
  | .hex x _, l => l = hex8 (x.valM s).toNat
  | .str e i _, l => i < 4 ∧ StrAt s (epdAddr (e.valM s) + i) l
  | .strV v _ _, l => StrAt s (s (v + 348)).toNat l

/-- The bytes that are read. -/
def Reads (s : Mem) : PItem → List (BitVec 8) → Nat → Prop
  | .lit p _ _ _ _, l, x => ∃ k < l.length, x = p - k
  | .str e i _, l, x => ∃ k ≤ l.length, x = posB (epdAddr (e.valM s) + i) k
  | .strV v _ _, l, x => ∃ k ≤ l.length, x = posB (s (v + 348)).toNat k
  | _, _, _ => False

/-- All dwords of the subroutines, and `ret`. -/
def scr (y : Nat) : Prop := C.D.all y ∨ y ∈ C.H.dws ∨ y ∈ C.S.dws ∨ y ∈ C.T.dws ∨ y = C.ret + 348

/-- Between two uses. -/
def Inv (s : Mem) : Prop := s (C.D.fe + 348) = 0 ∧ s (C.S.fe + 348) = 0 ∧ s (C.S.jump + 4) = BitVec.ofNat 32 C.S.wr ∧ s C.T.cnt = 0

/-- The labels of a thing are addresses. -/
def Lab : PItem → Prop
  | .strV _ k3 back => k3 < 2 ^ 32 ∧ back < 2 ^ 32
  | .lit _ _ _ _ back => back < 2 ^ 32
  | .dec _ back => back < 2 ^ 32
  | .hex _ back => back < 2 ^ 32
  | .str _ _ back => back < 2 ^ 32

structure Ok (L : Layout) (G : BCfg) : Prop where
  d : C.D.Ok L G
  h : C.H.Ok L G
  s : C.S.Ok L G
  t : C.T.Ok L G
  w : C.D.w = C.w ∧ C.H.w = C.w ∧ C.S.w = C.w ∧ C.T.w = C.w
  r : C.ret ∈ L.P.vars ∧ EpdOK (C.ret + 348) ∧ ¬ G.Int (C.ret + 348)
  rs : ¬ C.D.all (C.ret + 348) ∧ C.ret + 348 ∉ C.H.dws ∧ C.ret + 348 ∉ C.S.dws ∧ C.ret + 348 ∉ C.T.dws
  ds : C.D.fe + 348 ∉ C.H.dws ∧ C.D.fe + 348 ∉ C.S.dws ∧ C.D.fe + 348 ∉ C.T.dws
  ss : ∀ y ∈ [C.S.fe + 348, C.S.jump + 4], ¬ C.D.all y ∧ y ∉ C.H.dws ∧ y ∉ C.T.dws
  ts : ¬ C.D.all C.T.cnt ∧ C.T.cnt ∉ C.H.dws ∧ C.T.cnt ∉ C.S.dws

variable {C} {L : Layout} {G : BCfg} {br : Nat → Nat} {cp : W} {rp wp : Nat → Nat} {s s' : Mem}

/-- A dword that is kept. -/
theorem kept {S : Nat → Prop} {l : List (BitVec 8)} (h : Wrote G cp C.w S rp wp s s' l) (hq : wp C.w < 2 ^ 32) (hr : Room L G C.scr (wp C.w) l.length) {y : Nat} (hy : ¬ G.Int y) (hn : ¬ S y) (hS : C.scr y) : s' y = s y :=
  h.keep (L := L) hq (Nat.le_refl _) hr hy hn hS

theorem inv_cells (hC : C.Ok L G) : ∀ y ∈ [C.D.fe + 348, C.S.fe + 348, C.S.jump + 4, C.T.cnt], ¬ G.Int y ∧ C.scr y ∧ y ≠ C.ret + 348 := by
  simp only [List.mem_cons, List.not_mem_nil, or_false, forall_eq_or_imp, forall_eq]
  have a1 : C.D.all (C.D.fe + 348) := .inl (by simp)
  have a2 : C.S.fe + 348 ∈ C.S.dws := by simp [StrPr.dws]
  have a3 : C.S.jump + 4 ∈ C.S.dws := by simp [StrPr.dws]
  have a4 : C.T.cnt ∈ C.T.dws := by simp [LitPr.dws]
  exact ⟨⟨hC.d.iv.2.2.2.2, .inl a1, fun e => hC.rs.1 (e ▸ a1)⟩, ⟨hC.s.int _ a2, .inr (.inr (.inl a2)), fun e => hC.rs.2.2.1 (e ▸ a2)⟩, ⟨hC.s.int _ a3, .inr (.inr (.inl a3)), fun e => hC.rs.2.2.1 (e ▸ a3)⟩,
    hC.t.int _ a4, .inr (.inr (.inr (.inl a4))), fun e => hC.rs.2.2.2 (e ▸ a4)⟩

/-- What printing one thing does. -/
theorem item_does (hG : G.Ok L br) (hC : C.Ok L G) {it : PItem} {l : List (BitVec 8)} (hlab : Lab it) (hv : ∀ v, src it = .var v → v ∈ L.P.vars ∧ ¬ G.Int (v + 348) ∧ ¬ C.scr (v + 348)) (ha : C.At s it l)
    (hR : ∀ x, Reads s it l x → ¬ L.priv (x / 4 * 4) ∧ ¬ G.Int (x / 4 * 4) ∧ ¬ C.scr (x / 4 * 4) ∧ ∀ i < l.length, posB (wp C.w) i ≠ x) (h : BRep G cp ⟨rp, wp, s⟩ s) (hi : C.Inv s) (hr : Room L G C.scr (wp C.w) l.length) :
    Does L (C.item L G it) s fun s' => (∃ rp', Wrote G cp C.w C.scr rp' wp s s' l) ∧ C.Inv s' ∧ s' (C.ret + 348) = s (C.ret + 348) + BitVec.ofNat 32 (l.length - static it l.length) := by
  obtain ⟨n1, n2, n3, n4⟩ := hi
  obtain ⟨w1, w2, w3, w4⟩ := hC.w
  obtain ⟨p1, p2, p3⟩ := hC.r
  have ic := inv_cells hC
  simp only [List.mem_cons, List.not_mem_nil, or_false, forall_eq_or_imp, forall_eq] at ic
  obtain ⟨⟨j1, k1, l1⟩, ⟨j2, k2, l2⟩, ⟨j3, k3, l3⟩, ⟨j4, k4, l4⟩⟩ := ic
  have ss1 := hC.ss (C.S.fe + 348) (by simp)
  have ss2 := hC.ss (C.S.jump + 4) (by simp)
  obtain ⟨ts1, ts2, ts3⟩ := hC.ts
  obtain ⟨ds1, ds2, ds3⟩ := hC.ds
  have hq : wp C.w < 2 ^ 32 := by rw [← w1]; exact (h.wr _ hC.d.w).2.1
  have rm : ∀ {S : Nat → Prop}, (∀ y, S y → C.scr y) → Room L G S (wp C.w) l.length := fun hS k hk => ⟨(hr k hk).1, (hr k hk).2.1, (hr k hk).2.2.1, fun hh => (hr k hk).2.2.2 (hS _ hh)⟩
  have sD : ∀ y, (C.D.all y ∨ y = C.ret + 348) → C.scr y := fun y hy => hy.elim .inl fun e => .inr (.inr (.inr (.inr e)))
  have sH : ∀ y, (y ∈ C.H.dws ∨ y = C.ret + 348) → C.scr y := fun y hy => hy.elim (fun e => .inr (.inl e)) fun e => .inr (.inr (.inr (.inr e)))
  have sS : ∀ y, (y ∈ C.S.dws ∨ y = C.ret + 348) → C.scr y := fun y hy => hy.elim (fun e => .inr (.inr (.inl e))) fun e => .inr (.inr (.inr (.inr e)))
  have sT : ∀ y, y ∈ C.T.dws → C.scr y := fun y hy => .inr (.inr (.inr (.inl hy)))
  have no : ∀ {A : Prop} {y : Nat}, ¬ A → y ≠ C.ret + 348 → ¬ (A ∨ y = C.ret + 348) := fun h1 h2 h3 => h3.elim h1 h2
  cases it with
  | lit p a q1 q2 back =>
    obtain ⟨a1, a2, a3, a4, a5, a6⟩ := ha
    refine (LitPr.sub_spec (P := C.T) (back := back) hG hC.t h n4 a3 a1 a2 a4 a5 a6 (fun k hk => ?_) (by rw [w4]; exact rm sT) fun i j h1 h2 => ?_).mono ?_
    · obtain ⟨b1, b2, b3, -⟩ := hR _ ⟨k, hk, rfl⟩
      exact ⟨b1, b2, fun hm => b3 (sT _ hm)⟩
    · rw [w4]; exact (hR _ ⟨j, h2, rfl⟩).2.2.2 i (by omega)
    · rintro s' ⟨g1, g2⟩
      rw [w4] at g1
      refine ⟨⟨_, g1.mono sT⟩, ⟨?_, ?_, ?_, g2⟩, ?_⟩
      · rw [kept g1 hq hr j1 ds3 k1, n1]
      · rw [kept g1 hq hr j2 ss1.2.2 k2, n2]
      · rw [kept g1 hq hr j3 ss2.2.2 k3, n3]
      · rw [kept g1 hq hr p3 hC.rs.2.2.2 (.inr (.inr (.inr (.inr rfl)))), static, Nat.sub_self]; simp
  | dec x back =>
    simp only [At] at ha
    refine (DecPr.sub_spec (P := C.D) (dst := C.ret) (number := x) (back := back) hG hC.d hlab ⟨p1, p2, p3, hC.rs.1⟩ (fun v e => ?_) h n1 (by rw [w1, ← ha]; exact rm sD)).mono ?_
    · obtain ⟨c1, c2, c3⟩ := hv v e
      refine ⟨c1, fun hm => c3 (.inl (.inl ?_))⟩
      simp only [List.mem_cons, List.not_mem_nil, or_false] at hm ⊢; grind
    · rw [← ha, w1]
      rintro s' ⟨g1, g2, g3⟩
      refine ⟨⟨_, g1.mono sD⟩, ⟨g3, ?_, ?_, ?_⟩, ?_⟩
      · rw [kept g1 hq hr j2 (no ss1.1 l2) k2, n2]
      · rw [kept g1 hq hr j3 (no ss2.1 l3) k3, n3]
      · rw [kept g1 hq hr j4 (no ts1 l4) k4, n4]
      · rw [g2]; rfl
  | hex x back =>
    simp only [At] at ha
    have l8 : l.length = 8 := by rw [ha]; simp [hex8]
    refine (HexPr.sub_spec (P := C.H) (dst := C.ret) (number := x) (back := back) hG hC.h ⟨p1, p3, hC.rs.2.1⟩ (fun v e => ?_) h (by rw [w2, ← l8]; exact rm sH)).mono ?_
    · obtain ⟨c1, c2, c3⟩ := hv v e
      exact ⟨c1, fun e => c3 (.inr (.inl (by rw [e]; exact HexPr.mem_dws.2 (.inl rfl)))), fun e => c3 (.inr (.inr (.inr (.inr (by rw [e])))))⟩
    · rw [← ha, w2]
      rintro s' ⟨g1, g2⟩
      refine ⟨⟨_, g1.mono sH⟩, ⟨?_, ?_, ?_, ?_⟩, ?_⟩
      · rw [kept g1 hq hr j1 (no ds1 l1) k1, n1]
      · rw [kept g1 hq hr j2 (no ss1.2.1 l2) k2, n2]
      · rw [kept g1 hq hr j3 (no ss2.2.1 l3) k3, n3]
      · rw [kept g1 hq hr j4 (no ts2 l4) k4, n4]
      · rw [g2, l8]; rfl
  | str e i back =>
    obtain ⟨a1, a2⟩ := ha
    refine (StrPr.subE_spec (P := C.S) (dst := C.ret) (back := back) hG hC.s a1 (fun v e => ⟨(hv v e).1, (hv v e).2.1⟩) (fun v e hm => (hv v e).2.2 (.inr (.inr (.inl hm)))) ⟨p1, p2, p3, hC.rs.2.2.1⟩ h n2 n3 a2 (fun k hk => ?_)
      (by rw [w3]; exact rm sS) fun i' j h1 h2 => ?_).mono ?_
    · obtain ⟨b1, b2, b3, -⟩ := hR _ ⟨k, hk, rfl⟩
      exact ⟨b1, b2, fun hm => b3 (sS _ (.inl hm))⟩
    · rw [w3]; exact (hR _ ⟨j, h2, rfl⟩).2.2.2 i' (by omega)
    · rw [w3]
      rintro s' ⟨⟨rp', g1⟩, g2, g3, g4⟩
      refine ⟨⟨_, g1.mono sS⟩, ⟨?_, g3, g4, ?_⟩, ?_⟩
      · rw [kept g1 hq hr j1 (no ds2 l1) k1, n1]
      · rw [kept g1 hq hr j4 (no ts3 l4) k4, n4]
      · rw [g2]; rfl
  | strV v q3 back =>
    obtain ⟨c1, c2, c3⟩ := hv v rfl
    have hvl := (s (v + 348)).isLt
    refine Does.seq ((C37_step hG h hlab.1 (.rseekV C.S.r (.var v)) ⟨hC.s.r, fun u e => by cases e; exact ⟨c1, c2⟩⟩).mono fun s1 x2 => ?_)
    have v1 : ∀ y, ¬ G.Int y → s1 y = s y := x2.vis
    have b1 := x2.here
    simp only [BOp.spec, valM_var] at b1
    refine (StrPr.sub_spec (P := C.S) (dst := C.ret) (back := back) (l := l) hG hC.s ⟨p1, p2, p3, hC.rs.2.2.1⟩ b1 (by rw [v1 _ j2, n2]) (by rw [v1 _ j3, n3]) ?_ (fun k hk => ?_) (by rw [w3]; exact rm sS) fun i' j h1 h2 => ?_).mono ?_
    · rw [BHist.upd_self]
      exact StrAt.congr hvl (fun k hk => byteAt_congr (v1 _ (hR _ ⟨k, hk, rfl⟩).2.1)) ha
    · rw [BHist.upd_self]
      obtain ⟨b1, b2, b3, -⟩ := hR _ ⟨k, hk, rfl⟩
      exact ⟨b1, b2, fun hm => b3 (sS _ (.inl hm))⟩
    · rw [BHist.upd_self, w3]; exact (hR _ ⟨j, h2, rfl⟩).2.2.2 i' (by omega)
    · rw [w3]
      rintro s' ⟨g1, g2, g3, g4⟩
      have g1' : Wrote G cp C.w (fun y => y ∈ C.S.dws ∨ y = C.ret + 348) _ wp s s' l := ⟨g1.1, fun y hy hn => by rw [g1.2 y hy hn]; exact putBytes_congr (v1 y hy)⟩
      refine ⟨⟨_, g1'.mono sS⟩, ⟨?_, g3, g4, ?_⟩, ?_⟩
      · rw [kept g1' hq hr j1 (no ds2 l1) k1, n1]
      · rw [kept g1' hq hr j4 (no ts3 l4) k4, n4]
      · rw [g2, v1 _ p3]; rfl

/-- The things can be printed at `q`, where there is room for `n` bytes: their variables and strings are apart from the room, and from what belongs to the subroutines. -/
structure Fits (C : PrintCfg) (L : Layout) (G : BCfg) (s : Mem) (q n : Nat) (ps : List (PItem × List (BitVec 8))) : Prop where
  lab : ∀ p ∈ ps, Lab p.1
  var : ∀ p ∈ ps, ∀ v, src p.1 = .var v → v ∈ L.P.vars ∧ ¬ G.Int (v + 348) ∧ ¬ C.scr (v + 348) ∧ ∀ i < n, v + 348 ≠ posB q i / 4 * 4
  txt : ∀ p ∈ ps, C.At s p.1 p.2
  rds : ∀ p ∈ ps, ∀ x, Reads s p.1 p.2 x → ¬ L.priv (x / 4 * 4) ∧ ¬ G.Int (x / 4 * 4) ∧ ¬ C.scr (x / 4 * 4) ∧ ∀ i < n, posB q i ≠ x

/-- All texts. -/
def text (ps : List (PItem × List (BitVec 8))) : List (BitVec 8) := (ps.map (·.2)).flatten

theorem text_cons (p : PItem × List (BitVec 8)) (ps : List (PItem × List (BitVec 8))) : text (p :: ps) = p.2 ++ text ps := by simp [text]

/-- The variable of a thing is as before. -/
theorem src_same {it : PItem} {s s1 : Mem} (h : ∀ v, src it = .var v → s1 (v + 348) = s (v + 348)) : (src it).valM s1 = (src it).valM s := by
  cases e : src it with
  | const x => rfl
  | var v => exact h v e

theorem reads_same {it : PItem} {l : List (BitVec 8)} {s s1 : Mem} {x : Nat} (hv : (src it).valM s1 = (src it).valM s) (h : Reads s1 it l x) : Reads s it l x := by
  cases it with
  | lit => exact h
  | dec => exact h
  | hex => exact h
  | str e i b => simp only [Reads] at h ⊢; rwa [show e.valM s1 = e.valM s from hv] at h
  | strV v a b => simp only [Reads] at h ⊢; rwa [show s1 (v + 348) = s (v + 348) from hv] at h

/-- What is read is as before: the text is the same. -/
theorem at_same {it : PItem} {l : List (BitVec 8)} {s s1 : Mem} (hv : (src it).valM s1 = (src it).valM s) (hb : ∀ x, Reads s it l x → byteAt s1 x = byteAt s x) (h : C.At s it l) : C.At s1 it l := by
  cases it with
  | lit p a k1 k2 b => exact ⟨⟨h.1.1, fun k hk => by rw [hb _ ⟨k, hk, rfl⟩, h.1.2 k hk]⟩, h.2⟩
  | dec x b => simp only [At] at h ⊢; rw [show x.valM s1 = x.valM s from hv]; exact h
  | hex x b => simp only [At] at h ⊢; rw [show x.valM s1 = x.valM s from hv]; exact h
  | str e i b =>
    simp only [At] at h ⊢
    rw [show e.valM s1 = e.valM s from hv]
    refine ⟨h.1, StrAt.congr ?_ (fun k hk => hb _ ⟨k, hk, rfl⟩) h.2⟩
    have : epdAddr (e.valM s) % 4 = 0 ∧ epdAddr (e.valM s) < 2 ^ 32 := by unfold epdAddr deathTable; omega
    have := h.1
    omega
  | strV v a b =>
    simp only [At] at h ⊢
    rw [show s1 (v + 348) = s (v + 348) from hv]
    exact StrAt.congr (BitVec.isLt _) (fun k hk => hb _ ⟨k, hk, rfl⟩) h

/-- Printing some things after `u` was printed. -/
theorem items_does (hG : G.Ok L br) (hC : C.Ok L G) {n : Nat} (hn : n ≤ 2 ^ 32) (hq : wp C.w < 2 ^ 32) (hr : Room L G C.scr (wp C.w) n) : ∀ (ps : List (PItem × List (BitVec 8))) (u : List (BitVec 8)) (rp1 : Nat → Nat) (s1 : Mem),
    C.Fits L G s (wp C.w) n ps → u.length + (text ps).length ≤ n → Wrote G cp C.w C.scr rp1 wp s s1 u → C.Inv s1 →
    Does L (.seqs (ps.map fun p => C.item L G p.1)) s1 fun s' => (∃ rp', Wrote G cp C.w C.scr rp' wp s s' (u ++ text ps)) ∧ C.Inv s' ∧
      s' (C.ret + 348) + BitVec.ofNat 32 (ps.map fun p => static p.1 p.2.length).sum = s1 (C.ret + 348) + BitVec.ofNat 32 (text ps).length
  | [], u, rp1, s1, _, _, h, hi => Does.skip ⟨⟨rp1, by simpa [text] using h⟩, hi, by simp [text]⟩
  | p :: ps, u, rp1, s1, hf, hl, h, hi => by
    rw [text_cons, List.length_append] at hl
    have ev : (src p.1).valM s1 = (src p.1).valM s := src_same fun v e => by
      obtain ⟨-, c2, c3, c4⟩ := hf.var p (by simp) v e
      rw [h.2 _ c2 c3, putBytes_ne hq fun k hk => c4 k (by omega)]
    have eb : ∀ x, Reads s p.1 p.2 x → byteAt s1 x = byteAt s x := fun x hx => by
      obtain ⟨-, d2, d3, d4⟩ := hf.rds p (by simp) x hx
      rw [byteAt_congr (h.2 _ d2 d3), (byteAt_putBytes hq (by omega)).2 x fun k hk => Ne.symm (d4 k (by omega))]
    have key := item_does (s := s1) (wp := upd wp C.w (posB (wp C.w) u.length)) hG hC (hf.lab p (by simp)) (fun v e => ⟨(hf.var p (by simp) v e).1, (hf.var p (by simp) v e).2.1, (hf.var p (by simp) v e).2.2.1⟩)
      (at_same ev eb (hf.txt p (by simp))) (fun x hx => ?_) h.1 hi ?_
    · refine Does.seq (key.mono ?_)
      rintro s2 ⟨⟨rp2, g1⟩, g2, g3⟩
      have w2 := Wrote.comp hq h g1
      refine (items_does hG hC hn hq hr ps (u ++ p.2) rp2 s2 ⟨fun a ha => hf.lab a (by simp [ha]), fun a ha => hf.var a (by simp [ha]), fun a ha => hf.txt a (by simp [ha]), fun a ha => hf.rds a (by simp [ha])⟩
        (by rw [List.length_append]; omega) w2 g2).mono ?_
      rintro s' ⟨⟨rp', g4⟩, g5, g6⟩
      refine ⟨⟨rp', by rwa [text_cons, ← List.append_assoc]⟩, g5, ?_⟩
      have hs : static p.1 p.2.length ≤ p.2.length := by cases p.1 <;> simp [static]
      rw [text_cons, List.map_cons, List.sum_cons, List.length_append, BitVec.ofNat_add, BitVec.add_comm (BitVec.ofNat 32 (static _ _)), ← BitVec.add_assoc, g6, g3]
      rw [show p.2.length + (text ps).length = (p.2.length - static p.1 p.2.length) + ((text ps).length + static p.1 p.2.length) by omega, BitVec.ofNat_add, BitVec.ofNat_add]
      simp only [BitVec.add_assoc]
    · rw [BHist.upd_self]
      obtain ⟨d1, d2, d3, d4⟩ := hf.rds p (by simp) x (reads_same ev hx)
      exact ⟨d1, d2, d3, fun i hi => by rw [posB_add]; exact d4 _ (by omega)⟩
    · rw [BHist.upd_self]
      exact hr.at (by omega)

/-- **C58.** `f_dbstr_print(dst, *args, EOS=eos)`: for every destination and every list of literals, numbers, hexadecimal numbers and strings, of any lengths, the concatenation of the texts is at `dst` afterwards, followed by 0 if `eos`; the result is
`dst` and the length; no other dword of the program changes, and everything is ready for the next call. -/
theorem C58_print (hG : G.Ok L br) (hC : C.Ok L G) {dst : Src} {ps : List (PItem × List (BitVec 8))} {eos : Bool} {k1 k2 : Nat} (hk : k1 < 2 ^ 32 ∧ k2 < 2 ^ 32) (hd : SrcB L G dst) (hdr : dst ≠ .var C.ret)
    (h : BRep G cp ⟨rp, wp, s⟩ s) (hi : C.Inv s) (hn : (text ps).length + 1 ≤ 2 ^ 32) (hr : Room L G C.scr (dst.valM s).toNat ((text ps).length + 1)) (hf : C.Fits L G s (dst.valM s).toNat ((text ps).length + 1) ps) :
    Does L (C.print L G dst ps eos k1 k2) s fun s' => (∃ rp', BRep G cp ⟨rp', upd wp C.w (posB (dst.valM s).toNat (text ps ++ if eos then [0] else []).length), s'⟩ s') ∧ C.Inv s' ∧
      s' (C.ret + 348) = dst.valM s + BitVec.ofNat 32 (text ps).length ∧ ∀ y, ¬ G.Int y → ¬ C.scr y → s' y = putBytes s (dst.valM s).toNat (text ps ++ if eos then [0] else []) y := by
  obtain ⟨p1, p2, p3⟩ := hC.r
  have hw : C.w < G.nw := by rw [← hC.w.1]; exact hC.d.w
  have hql : (dst.valM s).toNat < 2 ^ 32 := BitVec.isLt _
  have cr := cell_val hG.wf p1
  have sr : C.scr (C.ret + 348) := .inr (.inr (.inr (.inr rfl)))
  have ic := inv_cells hC
  simp only [List.mem_cons, List.not_mem_nil, or_false, forall_eq_or_imp, forall_eq] at ic
  obtain ⟨⟨j1, q1, l1⟩, ⟨j2, q2, l2⟩, ⟨j3, q3, l3⟩, ⟨j4, q4, l4⟩⟩ := ic
  refine Does.seq (Does.asg (by simpa using cr) (by simpa using fun v hv => (hd v hv).1) ?_)
  simp only [runAsg_cons, runAsg_nil, arith]
  generalize hs1 : s.set (C.ret + 348) (dst.valM s) = s1
  have o1 : ∀ y, y ≠ C.ret + 348 → s1 y = s y := fun y hy => by rw [← hs1, set_ne hy]
  have b1 : BRep G cp ⟨rp, wp, s1⟩ s1 := h.move fun y hy => o1 y fun e => p3 (e ▸ hy)
  have ed : dst.valM s1 = dst.valM s := by
    cases dst with
    | const x => rfl
    | var v => exact o1 _ fun e => hdr (by rw [show v = C.ret by omega])
  have seek : Does L (C.seek L G k1 dst) s1 fun s2 => BRep G cp ⟨rp, upd wp C.w (dst.valM s).toNat, s1⟩ s2 := by
    cases dst with
    | const x => exact C37_step hG b1 hk.1 (.wseekC C.w x.toNat) ⟨hw, x.isLt⟩
    | var v =>
      refine (C37_step hG b1 hk.1 (.wseekV C.w (.var v)) ⟨hw, hd⟩).mono fun s2 h2 => ?_
      simp only [BOp.spec, ed] at h2
      exact h2
  refine Does.seq (seek.mono fun s2 h2 => ?_)
  have v2 : ∀ y, ¬ G.Int y → s2 y = s1 y := h2.vis
  have v3 : ∀ y, ¬ G.Int y → y ≠ C.ret + 348 → s2 y = s y := fun y hy hn => by rw [v2 y hy, o1 y hn]
  have b2 := h2.here
  simp only at b2
  have i2 : C.Inv s2 := by
    obtain ⟨n1, n2, n3, n4⟩ := hi
    exact ⟨by rw [v3 _ j1 l1, n1], by rw [v3 _ j2 l2, n2], by rw [v3 _ j3 l3, n3], by rw [v3 _ j4 l4, n4]⟩
  have ev : ∀ p ∈ ps, (src p.1).valM s2 = (src p.1).valM s := fun p hp => src_same fun v e => by
    obtain ⟨-, c2, c3, -⟩ := hf.var p hp v e
    exact v3 _ c2 fun e => c3 (e ▸ sr)
  have f2 : C.Fits L G s2 (dst.valM s).toNat ((text ps).length + 1) ps := by
    refine ⟨hf.lab, hf.var, fun p hp => at_same (ev p hp) (fun x hx => ?_) (hf.txt p hp), fun p hp x hx => hf.rds p hp x (reads_same (ev p hp) hx)⟩
    obtain ⟨-, d2, d3, -⟩ := hf.rds p hp x hx
    exact byteAt_congr (v3 _ d2 fun e => d3 (e ▸ sr))
  have u1 : (upd wp C.w (dst.valM s).toNat) C.w = (dst.valM s).toNat := BHist.upd_self _ _ _
  have key := items_does (s := s2) (cp := cp) (wp := upd wp C.w (dst.valM s).toNat) hG hC hn (by rw [u1]; exact hql) (by rw [u1]; exact hr) ps [] rp s2 (by rw [u1]; exact f2) (by simp) (Wrote.refl b2 (by rw [u1]; exact hql)) i2
  refine Does.seq (key.mono ?_)
  rintro s3 ⟨⟨rp3, g1⟩, g2, g3⟩
  rw [List.nil_append] at g1
  have r2 : s2 (C.ret + 348) = dst.valM s := by rw [v2 _ p3, ← hs1, set_eq]
  have hadd : Does L (if (ps.map fun p => static p.1 p.2.length).sum = 0 then .skip else .asg [⟨C.ret + 348, .add, .const (BitVec.ofNat 32 (ps.map fun p => static p.1 p.2.length).sum)⟩]) s3 fun s4 =>
      Wrote G cp C.w C.scr rp3 (upd wp C.w (dst.valM s).toNat) s2 s4 (text ps) ∧ C.Inv s4 ∧ s4 (C.ret + 348) = dst.valM s + BitVec.ofNat 32 (text ps).length := by
    split
    · rename_i e
      rw [e, r2] at g3
      exact Does.skip ⟨g1, g2, by rw [← g3]; simp⟩
    · refine Does.asg (by simpa using cr) (by simp) ?_
      simp only [runAsg_cons, runAsg_nil, arith, Src.valM_const]
      refine ⟨g1.loc hG (T := [C.ret + 348]) ((Only.refl _ _).set (by simp) _) (by simpa using sr) (by simpa using fun hI => absurd hI p3), ?_, by rw [set_eq, g3, r2]⟩
      obtain ⟨n1, n2, n3, n4⟩ := g2
      exact ⟨by rw [set_ne l1, n1], by rw [set_ne l2, n2], by rw [set_ne l3, n3], by rw [set_ne l4, n4]⟩
  refine Does.seq (hadd.mono ?_)
  rintro s4 ⟨g4, g5, g6⟩
  have fin : ∀ {l : List (BitVec 8)} {s5 : Mem}, Wrote G cp C.w C.scr rp3 (upd wp C.w (dst.valM s).toNat) s2 s5 l → (∃ rp', BRep G cp ⟨rp', upd wp C.w (posB (dst.valM s).toNat l.length), s5⟩ s5) ∧
      ∀ y, ¬ G.Int y → ¬ C.scr y → s5 y = putBytes s (dst.valM s).toNat l y := by
    intro l s5 g
    refine ⟨⟨rp3, ?_⟩, fun y hy hn => ?_⟩
    · have := g.1
      rwa [u1, upd_upd] at this
    · rw [g.2 y hy hn, u1]
      exact putBytes_congr (v3 y hy fun e => hn (e ▸ sr))
  cases eos with
  | false =>
    simp only [Bool.false_eq_true, if_false, List.append_nil]
    obtain ⟨z1, z2⟩ := fin g4
    exact Does.skip ⟨z1, g5, g6, z2⟩
  | true =>
    simp only [if_true]
    have b4 := g4.1
    rw [u1, upd_upd] at b4
    have hr1 : Room L G C.scr ((upd wp C.w (posB (dst.valM s).toNat (text ps).length)) C.w) 1 := by rw [BHist.upd_self]; exact hr.at (by omega)
    refine (wrC_does (b := 0) hG hw b4 hk.2 hr1).mono fun s5 g7 => ?_
    have g8 : Wrote G cp C.w C.scr rp3 (upd wp C.w (dst.valM s).toNat) s2 s5 (text ps ++ [0]) := by
      refine Wrote.comp (by rw [u1]; exact hql) g4 ?_
      rw [u1, upd_upd]
      exact g7.mono fun y hy => hy.elim
    obtain ⟨z1, z2⟩ := fin g8
    have kp : ∀ y, ¬ G.Int y → C.scr y → s5 y = s4 y := fun y hy hs => g7.keep (L := L) (n := 1) (by rw [BHist.upd_self]; exact Nat.mod_lt _ (by decide)) (by simp) (S' := C.scr) hr1 hy (fun h => h) hs
    obtain ⟨n1, n2, n3, n4⟩ := g5
    exact ⟨z1, ⟨by rw [kp _ j1 q1, n1], by rw [kp _ j2 q2, n2], by rw [kp _ j3 q3, n3], by rw [kp _ j4 q4, n4]⟩, by rw [kp _ p3 sr, g6], z2⟩

end PrintCfg

end Eud.SC
