import Verif.Lib.Patch
/-
C47: `f_dwpatch_epd` and `f_unpatchall` as functions (mempatch.py:42-62, 111-119).
-/

namespace Eud.SC

/-- A record on the patch stack: destination, source, count. -/
abbrev PRec := W × W × W

def PCfg.InStk (G : PCfg) (x : Nat) : Prop := ∃ q < 3 * G.cap, x = G.pb + 4 * q

/-- A dword that may be patched. -/
def PTarget (L : Layout) (G : PCfg) (D : W) : Prop := PlainEpd D ∧ L.cell (epdAddr D) ∧ epdAddr D ∉ G.scr ∧ ¬ G.InStk (epdAddr D)

/-- Static facts of a placement. -/
structure POk (L : Layout) (G : PCfg) : Prop where
  nd : G.scr.Nodup
  cells : ∀ x ∈ G.scr, L.cell x
  vars : ∀ v ∈ [G.ps, G.dws, G.t1, G.t2, G.t3, G.o1, G.o2, G.o3, G.bd, G.bs, G.cd], v ∈ L.P.vars
  al : G.pb % 4 = 0 ∧ G.db % 4 = 0
  lt : G.pb + 12 * G.cap < 2 ^ 32 ∧ G.db + 4 * G.cap < 2 ^ 32
  pl : ∀ q < 3 * G.cap, PlainEpd (epd G.pb + BitVec.ofNat 32 q) ∧ L.cell (G.pb + 4 * q) ∧ G.pb + 4 * q ∉ G.scr
  dl : ∀ q < G.cap, PlainEpd (epd G.db + BitVec.ofNat 32 q) ∧ L.cell (G.db + 4 * q) ∧ G.db + 4 * q ∉ G.scr ∧ ¬ G.InStk (G.db + 4 * q)
  tl : G.tb % 4 = 0 ∧ G.tb + 1024 ≤ 2 ^ 32 ∧ ∀ q < 256, PTarget L G (epd G.tb + BitVec.ofNat 32 q)

/-- The patch stack holds `log` (oldest first), the other dwords are those of `m`, and the current player is `c`. -/
structure PIs (G : PCfg) (log : List PRec) (m : Mem) (c : W) (s : Mem) : Prop where
  ps : s (G.ps + 348) = BitVec.ofNat 32 (3 * log.length)
  dws : s (G.dws + 348) = BitVec.ofNat 32 log.length
  len : log.length ≤ G.cap
  sum : s (G.rend + 348) = 0
  cpc : s (G.cpc + 348) = c
  cp : s cpAddr = c
  mdc : s (G.cpc + 352) = pmod .set
  mdd : s (G.d + 352) = pmod .set
  mdv : s (G.v + 352) = pmod .set
  mdp : s (G.pos + 352) = pmod .set
  mdq : s (G.prev + 352) = pmod .set
  mdn : s (G.bn + 352) = pmod .set
  stk : ∀ i d p n, log[i]? = some (d, p, n) → s (G.pb + 4 * (3 * i)) = d ∧ s (G.pb + 4 * (3 * i + 1)) = p ∧ s (G.pb + 4 * (3 * i + 2)) = n
  mem : ∀ x, x ∉ G.scr → ¬ G.InStk x → s x = m x

/-- mempatch.py:42-62 `f_dwpatch_epd`. -/
def dwpatchBody (L : Layout) (G : PCfg) (rd n1 n2 n3 n4 : Nat) : Stmt :=
  .seqs [.prim (PReadRel L G.rend G.cpc G.d n1 (G.prev + 348) rd), .asg (sumAsg G.pos (.const (epd G.db)) (.var G.dws)), .prim (VProc4Rel L G.d G.v G.pos G.prev n2),
    .prim (PushRel L G.ps G.d n3 (epd G.pb)), .trig [] [aMem (G.ps + 348) .add 1], .prim (PushRel L G.ps G.pos n4 (epd G.pb)), .trig [] [aMem (G.ps + 348) .add 1],
    .seq (.prim (FillRel G.p1 (.const (epd G.pb)) (.var G.ps))) (.trig [] [⟨⟨none, .set, some 1, some 0xFFFFFFFF⟩, some G.p1⟩]), .trig [] [aMem (G.ps + 348) .add 1], .trig [] [aMem (G.dws + 348) .add 1]]

theorem ofNat_succ' (k : Nat) : BitVec.ofNat 32 k + 1 = BitVec.ofNat 32 (k + 1) := by
  rw [BitVec.ofNat_add]
  rfl

set_option maxHeartbeats 1000000 in
theorem dwpatch_body {L : Layout} {G : PCfg} (hk : POk L G) (rd n1 n2 n3 n4 : Nat) {log : List PRec} {m : Mem} {c : W} {s : Mem} (h : PIs G log m c s) (hl : log.length < G.cap) (ht : PTarget L G (s (G.d + 348))) :
    Does L (dwpatchBody L G rd n1 n2 n3 n4) s fun s' =>
      PIs G (log ++ [(s (G.d + 348), epd G.db + BitVec.ofNat 32 log.length, 1)])
        ((m.set (epdAddr (s (G.d + 348))) (s (G.v + 348))).set (G.db + 4 * log.length) (m (epdAddr (s (G.d + 348))))) c s' ∧ s' G.rp = s G.rp := by
  have nd := hk.nd
  have K : ∀ q, q < 3 * G.cap → epdAddr (epd G.pb + BitVec.ofNat 32 q) = G.pb + 4 * q := fun q hq => epdAddr_add hk.al.1 (by have := hk.lt.1; omega)
  have Kc : ∀ q, q < 3 * G.cap → PlainEpd (epd G.pb + BitVec.ofNat 32 q) ∧ L.cell (epdAddr (epd G.pb + BitVec.ofNat 32 q)) ∧ epdAddr (epd G.pb + BitVec.ofNat 32 q) ∉ G.scr := fun q hq => by
    rw [K q hq]; exact hk.pl q hq
  have J : epdAddr (epd G.db + BitVec.ofNat 32 log.length) = G.db + 4 * log.length := epdAddr_add hk.al.2 (by have := hk.lt.2; omega)
  obtain ⟨jp, jc, jn, js⟩ := hk.dl _ hl
  have cell : ∀ i, i < 47 → L.cell (G.C i) := fun i hi => hk.cells _ (G.C_mem hi)
  have e0 := PRep.start G s
  have g11 : s (G.C 11) = BitVec.ofNat 32 (3 * log.length) := h.ps
  have g12 : s (G.C 12) = BitVec.ofNat 32 log.length := h.dws
  have g4 : s (G.C 4) = 0 := h.sum
  have g9 : s (G.C 9) = pmod .set := h.mdc
  have g16 : s (G.C 16) = pmod .set := h.mdd
  have g20 : s (G.C 20) = pmod .set := h.mdv
  have g24 : s (G.C 24) = pmod .set := h.mdp
  have g28 : s (G.C 28) = pmod .set := h.mdq
  have g15 : s (G.C 15) = s (G.d + 348) := rfl
  generalize hD : s (G.d + 348) = D at *
  obtain ⟨tp, tc, tn, ts⟩ := ht
  refine Does.seq (pread_does nd e0 n1 rd g9 g16 ?_ ?_ fun g1 s1 r1 f1 a1 b1 c1 => ?_)
  · rw [g15]; exact tc.2
  · rw [g15]; exact tn
  rw [g4, g15, show (0 : W) + s (epdAddr D) = s (epdAddr D) from BitVec.zero_add _] at a1
  have F1 : ∀ i, i ∈ [8, 9, 10, 11, 12, 15, 16, 19, 20, 24, 28, 30, 31, 43] → g1 i = s (G.C i) := fun i hi => f1 i (by
    simp only [List.mem_cons, List.not_mem_nil, or_false] at hi; rcases hi with rfl | rfl | rfl | rfl | rfl | rfl | rfl | rfl | rfl | rfl | rfl | rfl | rfl | rfl <;> decide)
  clear f1
  refine Does.seq (sumC_does nd r1 (i := 23) (j := 12) (by decide) (by decide) rfl rfl (by decide) (epd G.db) (cell 23 (by decide)) (hk.vars _ (by simp)) fun s2 r2 => ?_)
  rw [F1 12 (by decide), g12] at r2
  generalize hg2 : g1.set 23 (epd G.db + BitVec.ofNat 32 log.length) = g2 at r2
  have F2 : ∀ i, i ∈ [8, 9, 10, 11, 12, 15, 16, 19, 20, 24, 28, 30, 31, 43] → g2 i = s (G.C i) := fun i hi => by rw [← hg2, set_ne (by rintro rfl; revert hi; decide), F1 i hi]
  have p2 : g2 23 = epd G.db + BitVec.ofNat 32 log.length := by rw [← hg2, set_eq]
  have a2 : g2 27 = s (epdAddr D) := by rw [← hg2, set_ne (by decide), a1]
  have b2 : g2 4 = 0 := by rw [← hg2, set_ne (by decide), b1]
  have c2 : g2 7 = s (G.C 8) := by rw [← hg2, set_ne (by decide), c1]
  clear hg2 r1 F1 a1 b1 c1
  refine Does.seq (vproc4_does nd r2 n2 (by rw [F2 16 (by decide), g16]) (by rw [F2 20 (by decide), g20]) (by rw [F2 24 (by decide), g24]) (by rw [F2 28 (by decide), g28]) (by rw [F2 15 (by decide), g15]; exact tp)
    (by rw [F2 15 (by decide), g15]; exact tc) (by rw [F2 15 (by decide), g15]; exact tn) (by rw [p2]; exact jp) (by rw [p2, J]; exact jc) (by rw [p2, J]; exact jn) fun g3 s3 r3 f3 => ?_)
  rw [F2 15 (by decide), g15, F2 19 (by decide), p2, J, a2] at r3
  have F3 : ∀ i, i ∈ [8, 9, 10, 11, 12, 15, 16, 19, 20, 24, 28, 30, 31, 43] → g3 i = s (G.C i) := fun i hi => by rw [f3 i (by
    simp only [List.mem_cons, List.not_mem_nil, or_false] at hi; rcases hi with rfl | rfl | rfl | rfl | rfl | rfl | rfl | rfl | rfl | rfl | rfl | rfl | rfl | rfl <;> decide), F2 i hi]
  have p3 : g3 23 = epd G.db + BitVec.ofNat 32 log.length := by rw [f3 23 (by decide), p2]
  have b3 : g3 4 = 0 := by rw [f3 4 (by decide), b2]
  have c3 : g3 7 = s (G.C 8) := by rw [f3 7 (by decide), c2]
  clear r2 F2 p2 a2 b2 c2 f3
  have t3 : g3 11 = BitVec.ofNat 32 (3 * log.length) := by rw [F3 11 (by decide), g11]
  have F3 : ∀ i, i ∈ [8, 9, 10, 12, 15, 16, 19, 20, 24, 28, 30, 31, 43] → g3 i = s (G.C i) := fun i hi => F3 i (by
    simp only [List.mem_cons, List.not_mem_nil, or_false] at hi ⊢; rcases hi with rfl | rfl | rfl | rfl | rfl | rfl | rfl | rfl | rfl | rfl | rfl | rfl | rfl <;> decide)
  obtain ⟨x1, x2, x3⟩ := Kc (3 * log.length) (by omega)
  refine Does.seq (push_does nd r3 n3 (v := G.d) (j := 13) (Or.inl ⟨rfl, rfl⟩) (by rw [F3 16 (by decide), g16]) (by rw [t3]; exact x1) (by rw [t3]; exact x2) (by rw [t3]; exact x3) fun g4' s4 r4 f4 => ?_)
  rw [t3, K _ (by omega), F3 15 (by decide), g15] at r4
  clear x1 x2 x3
  have F4 : ∀ i, i ∈ [8, 9, 10, 12, 15, 16, 19, 20, 24, 28, 30, 31, 43] → g4' i = s (G.C i) := fun i hi => by rw [f4 i (by rintro rfl; revert hi; decide) (by rintro rfl; revert hi; decide), F3 i hi]
  have t4 : g4' 11 = BitVec.ofNat 32 (3 * log.length) := by rw [f4 11 (by decide) (by decide), t3]
  have p4 : g4' 23 = epd G.db + BitVec.ofNat 32 log.length := by rw [f4 23 (by decide) (by decide), p3]
  have b4 : g4' 4 = 0 := by rw [f4 4 (by decide) (by decide), b3]
  have c4 : g4' 7 = s (G.C 8) := by rw [f4 7 (by decide) (by decide), c3]
  clear f4 r3 F3 t3 p3 b3 c3
  refine Does.seq (addC_does nd r4 (i := 11) (by decide) rfl 1 (cell 11 (by decide)) fun s5 r5 => ?_)
  rw [t4, ofNat_succ'] at r5
  generalize hg5 : g4'.set 11 (BitVec.ofNat 32 (3 * log.length + 1)) = g5 at r5
  have F5 : ∀ i, i ∈ [8, 9, 10, 12, 15, 16, 19, 20, 24, 28, 30, 31, 43] → g5 i = s (G.C i) := fun i hi => by rw [← hg5, set_ne (by rintro rfl; revert hi; decide), F4 i hi]
  have t5 : g5 11 = BitVec.ofNat 32 (3 * log.length + 1) := by rw [← hg5, set_eq]
  have p5 : g5 23 = epd G.db + BitVec.ofNat 32 log.length := by rw [← hg5, set_ne (by decide), p4]
  have b5 : g5 4 = 0 := by rw [← hg5, set_ne (by decide), b4]
  have c5 : g5 7 = s (G.C 8) := by rw [← hg5, set_ne (by decide), c4]
  clear hg5 r4 F4 t4 p4 b4 c4
  obtain ⟨x1, x2, x3⟩ := Kc (3 * log.length + 1) (by omega)
  refine Does.seq (push_does nd r5 n4 (v := G.pos) (j := 21) (Or.inr (Or.inl ⟨rfl, rfl⟩)) (by rw [F5 24 (by decide), g24]) (by rw [t5]; exact x1) (by rw [t5]; exact x2) (by rw [t5]; exact x3) fun g6 s6 r6 f6 => ?_)
  rw [t5, K _ (by omega), p5] at r6
  clear x1 x2 x3
  have F6 : ∀ i, i ∈ [8, 9, 10, 12, 15, 16, 19, 20, 24, 28, 30, 31, 43] → g6 i = s (G.C i) := fun i hi => by rw [f6 i (by rintro rfl; revert hi; decide) (by rintro rfl; revert hi; decide), F5 i hi]
  have t6 : g6 11 = BitVec.ofNat 32 (3 * log.length + 1) := by rw [f6 11 (by decide) (by decide), t5]
  have b6 : g6 4 = 0 := by rw [f6 4 (by decide) (by decide), b5]
  have c6 : g6 7 = s (G.C 8) := by rw [f6 7 (by decide) (by decide), c5]
  clear f6 r5 F5 t5 p5 b5 c5
  refine Does.seq (addC_does nd r6 (i := 11) (by decide) rfl 1 (cell 11 (by decide)) fun s7 r7 => ?_)
  rw [t6, ofNat_succ'] at r7
  generalize hg7 : g6.set 11 (BitVec.ofNat 32 (3 * log.length + 1 + 1)) = g7 at r7
  have F7 : ∀ i, i ∈ [8, 9, 10, 12, 15, 16, 19, 20, 24, 28, 30, 31, 43] → g7 i = s (G.C i) := fun i hi => by rw [← hg7, set_ne (by rintro rfl; revert hi; decide), F6 i hi]
  have t7 : g7 11 = BitVec.ofNat 32 (3 * log.length + 2) := by rw [← hg7, set_eq]
  have b7 : g7 4 = 0 := by rw [← hg7, set_ne (by decide), b6]
  have c7 : g7 7 = s (G.C 8) := by rw [← hg7, set_ne (by decide), c6]
  clear hg7 r6 F6 t6 b6 c6
  obtain ⟨x1, x2, x3⟩ := Kc (3 * log.length + 2) (by omega)
  refine Does.seq (pushK_does nd r7 1 (cell 29 (by decide)) (by rw [t7]; exact x1) (by rw [t7]; exact x2) (by rw [t7]; exact x3) fun g8 s8 r8 f8 => ?_)
  rw [t7, K _ (by omega)] at r8
  clear x1 x2 x3
  have F8 : ∀ i, i ∈ [8, 9, 10, 12, 15, 16, 19, 20, 24, 28, 30, 31, 43] → g8 i = s (G.C i) := fun i hi => by rw [f8 i (by rintro rfl; revert hi; decide), F7 i hi]
  have t8 : g8 11 = BitVec.ofNat 32 (3 * log.length + 2) := by rw [f8 11 (by decide), t7]
  have b8 : g8 4 = 0 := by rw [f8 4 (by decide), b7]
  have c8 : g8 7 = s (G.C 8) := by rw [f8 7 (by decide), c7]
  clear f8 r7 F7 t7 b7 c7
  refine Does.seq (addC_does nd r8 (i := 11) (by decide) rfl 1 (cell 11 (by decide)) fun s9 r9 => ?_)
  rw [t8, ofNat_succ'] at r9
  refine Does.seq (addC_does nd r9 (i := 12) (by decide) rfl 1 (cell 12 (by decide)) fun s10 r10 => Does.skip ?_)
  rw [set_ne (show (12 : Nat) ≠ 11 by decide), F8 12 (by decide), g12, ofNat_succ'] at r10
  generalize hg : (g8.set 11 (BitVec.ofNat 32 (3 * log.length + 2 + 1))).set 12 (BitVec.ofNat 32 (log.length + 1)) = g at r10
  have F : ∀ i, i ∈ [8, 9, 10, 15, 16, 19, 20, 24, 28, 30, 31, 43] → s10 (G.C i) = s (G.C i) := fun i hi => by
    rw [r10.c i (by revert i; decide), ← hg, set_ne (by rintro rfl; revert hi; decide), set_ne (by rintro rfl; revert hi; decide), F8 i (by revert i; decide)]
  have o := r10.o
  have nk : ∀ q, q < 3 * G.cap → G.pb + 4 * q ∉ G.scr := fun q hq => (hk.pl q hq).2.2
  have e1 : ∀ q, q < 3 * G.cap → G.pb + 4 * q ≠ epdAddr D := fun q hq e => ts ⟨q, hq, e.symm⟩
  have e2 : ∀ q, q < 3 * G.cap → G.pb + 4 * q ≠ G.db + 4 * log.length := fun q hq e => js ⟨q, hq, e.symm⟩
  refine ⟨⟨?_, ?_, ?_, ?_, (F 8 (by decide)).trans h.cpc, ?_, (F 9 (by decide)).trans h.mdc, (F 16 (by decide)).trans h.mdd, (F 20 (by decide)).trans h.mdv, (F 24 (by decide)).trans h.mdp, (F 28 (by decide)).trans h.mdq, (F 43 (by decide)).trans h.mdn, ?_, ?_⟩,
    F 30 (by decide)⟩
  · rw [show G.ps + 348 = G.C 11 from rfl, r10.c 11 (by decide), ← hg, set_ne (by decide), set_eq, List.length_append, List.length_singleton, Nat.mul_add]
  · rw [show G.dws + 348 = G.C 12 from rfl, r10.c 12 (by decide), ← hg, set_eq, List.length_append, List.length_singleton]
  · rw [List.length_append, List.length_singleton]; omega
  · rw [show G.rend + 348 = G.C 4 from rfl, r10.c 4 (by decide), ← hg, set_ne (by decide), set_ne (by decide), b8]
  · rw [show cpAddr = G.C 7 from rfl, r10.c 7 (by decide), ← hg, set_ne (by decide), set_ne (by decide), c8]
    exact h.cpc
  · intro i d p n hi
    by_cases hil : i < log.length
    · rw [List.getElem?_append_left hil] at hi
      obtain ⟨q0, q1, q2⟩ := h.stk i d p n hi
      have st : ∀ q, q < 3 * log.length → s10 (G.pb + 4 * q) = s (G.pb + 4 * q) := fun q hq => by
        rw [o _ (nk q (by omega)), set_ne (by omega), set_ne (by omega), set_ne (by omega), set_ne (e2 q (by omega)), set_ne (e1 q (by omega))]
      rw [st _ (by omega), st _ (by omega), st _ (by omega)]
      exact ⟨q0, q1, q2⟩
    · have hl2 := (List.getElem?_eq_some_iff.1 hi).1
      rw [List.length_append, List.length_singleton] at hl2
      obtain rfl : i = log.length := by omega
      rw [List.getElem?_concat_length] at hi
      cases hi
      rw [o _ (nk _ (by omega)), o _ (nk _ (by omega)), o _ (nk _ (by omega))]
      refine ⟨?_, ?_, ?_⟩
      · rw [set_ne (by omega), set_ne (by omega), set_eq]
      · rw [set_ne (by omega), set_eq]
      · rw [set_eq]
  · intro x hx hs
    have ne : ∀ q, q < 3 * G.cap → x ≠ G.pb + 4 * q := fun q hq e => hs ⟨q, hq, e⟩
    rw [o _ hx, set_ne (ne _ (by omega)), set_ne (ne _ (by omega)), set_ne (ne _ (by omega)), get_set, get_set, get_set, get_set, h.mem x hx hs, h.mem _ tn ts]
    rfl

/-! ## Unpatching -/

/-- mempatch.py:36-39 `poppatchstack()` -/
def popS (L : Layout) (G : PCfg) (t o nxt : Nat) : Stmt :=
  .seq (.trig [] [aMem (G.ps + 348) .add (-1)]) (.seq (.asg (sumAsg t (.const (epd G.pb)) (.var G.ps))) (.prim (EpdRel L G.rend G.cpc nxt (o + 348) 0xFFFFFFFF 0 (.var t) none)))

/-- mempatch.py:111-119 `f_unpatchall` -/
def unpatchBody (L : Layout) (G : PCfg) (cn fe back n1 n2 n3 : Nat) : Stmt :=
  .loop false .skip [cMem (G.ps + 348) .atLeast 1]
    (.seqs [.trig [] [aMem (G.dws + 348) .add (-1)], popS L G G.t1 G.o1 n1, popS L G G.t2 G.o2 n2, popS L G G.t3 G.o3 n3,
      .prim (CallRel L fe G.np back (.prim (RepRel L G.rend G.cpc G.ls cn fe)) [] (repArgs G.rend G.ls (.var G.o3) (.var G.o2) (.var G.o1)))]) .skip

theorem ofNat_pred' (k : Nat) : BitVec.ofNat 32 (k + 1) + -1 = BitVec.ofNat 32 k := by
  rw [← ofNat_succ', BitVec.add_assoc]
  exact BitVec.add_zero _

theorem pop_does {L : Layout} {G : PCfg} (hk : POk L G) {g e s : Mem} {Q : Mem → Prop} (h : PRep G g e s) {q i j t o : Nat} (nxt : Nat) (hq : q < 3 * G.cap) (hi : i < 47) (hi' : 32 ≤ i) (hj : j < 47) (hj' : 32 ≤ j) (hij : i ≠ j)
    (ht : t + 348 = G.C j) (ho : o + 348 = G.C i) (h1 : g 9 = pmod .set) (h4 : g 4 = 0) (h11 : g 11 = BitVec.ofNat 32 (q + 1))
    (hQ : ∀ g' s', PRep G g' e s' → (∀ k, k ∉ [2, 5, 6, 3, i, j, 4, 7, 11] → g' k = g k) → g' i = e (G.pb + 4 * q) → g' 4 = 0 → g' 7 = g 8 → g' 11 = BitVec.ofNat 32 q → Q s') : Does L (popS L G t o nxt) s Q := by
  have nd := hk.nd
  have K : epdAddr (epd G.pb + BitVec.ofNat 32 q) = G.pb + 4 * q := epdAddr_add hk.al.1 (by have := hk.lt.1; omega)
  refine Does.seq (addC_does nd h (i := 11) (by decide) rfl (-1) (hk.cells _ (G.C_mem (i := 11) (by decide))) fun s1 r1 => ?_)
  rw [h11, ofNat_pred'] at r1
  refine Does.seq (sumC_does nd r1 (i := j) (j := 11) hj (by decide) ht rfl (by omega) (epd G.pb) (ht ▸ hk.cells _ (G.C_mem hj)) (hk.vars _ (by simp)) fun s2 r2 => ?_)
  rw [set_eq] at r2
  have ej : ((g.set 11 (BitVec.ofNat 32 q)).set j (epd G.pb + BitVec.ofNat 32 q)) j = epd G.pb + BitVec.ofNat 32 q := set_eq _ _ _
  refine readC_does nd r2 hi (by omega) hj ht ho nxt ?_ ?_ ?_ fun g' s' r f a b c => hQ g' s' r ?_ ?_ b ?_ ?_
  · rw [set_ne (by omega), set_ne (by omega), h1]
  · rw [ej, K]; exact (hk.pl q hq).2.1.2
  · rw [ej, K]; exact (hk.pl q hq).2.2
  · intro k hk
    simp only [List.mem_cons, List.not_mem_nil, or_false, not_or] at hk
    rw [f k (by simp [hk]), set_ne (by simp [hk]), set_ne (by simp [hk])]
  · rw [a, ej, K, set_ne (by omega), set_ne (by omega), h4]
    exact BitVec.zero_add _
  · rw [c, set_ne (by omega), set_ne (by omega)]
  · rw [f 11 (by simp; omega), set_ne (by omega), set_eq]

/-- Static facts of the call to `f_repmovsd_epd`. -/
structure UOk (L : Layout) (G : PCfg) (t0 cn rd fe back : Nat) : Prop where
  rep : RepOk L G.rend G.cpc t0 G.ls cn rd fe
  fin : FuncEnd L fe G.np []
  call : CallOk L G.np [] (repArgs G.rend G.ls (.var G.o3) (.var G.o2) (.var G.o1)) (repScr G.rend G.cpc G.ls)
  back : back < 2 ^ 32

/-- A record whose dwords may be copied back. -/
def RecOk (L : Layout) (G : PCfg) (r : PRec) : Prop :=
  ∀ i < r.2.2.toNat, PTarget L G (r.1 + BitVec.ofNat 32 i) ∧ ¬ L.priv (epdAddr (r.2.1 + BitVec.ofNat 32 i)) ∧ epdAddr (r.2.1 + BitVec.ofNat 32 i) ∉ G.scr ∧ ¬ G.InStk (epdAddr (r.2.1 + BitVec.ofNat 32 i))

/-- All records are copied back, the newest first. -/
def undo (log : List PRec) (m : Mem) : Mem := log.foldr (fun r m => movsd r.2.2.toNat r.1 r.2.1 m) m

def PCfg.stkL (G : PCfg) : List Nat := (List.range (3 * G.cap)).map fun q => G.pb + 4 * q

theorem PCfg.mem_stkL {G : PCfg} {x : Nat} : x ∈ G.stkL ↔ G.InStk x := by
  simp only [PCfg.stkL, List.mem_map, List.mem_range, PCfg.InStk]
  constructor
  · rintro ⟨q, h, rfl⟩; exact ⟨q, h, rfl⟩
  · rintro ⟨q, h, rfl⟩; exact ⟨q, h, rfl⟩

set_option maxHeartbeats 1000000 in
theorem unpatch_step {L : Layout} (hw : L.Wf) {G : PCfg} (hk : POk L G) {t0 cn rd fe back : Nat} (hu : UOk L G t0 cn rd fe back) (n1 n2 n3 : Nat) {log : List PRec} {d p n : W} {m : Mem} {c : W} {s : Mem}
    (h : PIs G (log ++ [(d, p, n)]) m c s) (hr : RecOk L G (d, p, n)) :
    Does L (.seqs [.trig [] [aMem (G.dws + 348) .add (-1)], popS L G G.t1 G.o1 n1, popS L G G.t2 G.o2 n2, popS L G G.t3 G.o3 n3,
      .prim (CallRel L fe G.np back (.prim (RepRel L G.rend G.cpc G.ls cn fe)) [] (repArgs G.rend G.ls (.var G.o3) (.var G.o2) (.var G.o1)))]) s fun s' =>
      PIs G log (movsd n.toNat d p m) c s' ∧ s' G.ru = s G.ru := by
  have nd := hk.nd
  have hlen := h.len
  rw [List.length_append, List.length_singleton] at hlen
  have cell : ∀ i, i < 47 → L.cell (G.C i) := fun i hi => hk.cells _ (G.C_mem hi)
  have e0 := PRep.start G s
  have g11 : s (G.C 11) = BitVec.ofNat 32 (3 * log.length + 2 + 1) := by rw [show s (G.C 11) = _ from h.ps, List.length_append, List.length_singleton, Nat.mul_add]
  have g12 : s (G.C 12) = BitVec.ofNat 32 (log.length + 1) := by rw [show s (G.C 12) = _ from h.dws, List.length_append, List.length_singleton]
  have g4 : s (G.C 4) = 0 := h.sum
  have g9 : s (G.C 9) = pmod .set := h.mdc
  obtain ⟨q0, q1, q2⟩ := h.stk log.length d p n (by rw [List.getElem?_concat_length])
  refine Does.seq (addC_does nd e0 (i := 12) (by decide) rfl (-1) (cell 12 (by decide)) fun s1 r1 => ?_)
  rw [g12, ofNat_pred'] at r1
  generalize hg1 : Mem.set (fun i => s (G.C i)) 12 (BitVec.ofNat 32 log.length) = g1 at r1
  have F1 : ∀ k, k ∉ [2, 5, 6, 3, 4, 7, 11, 12, 32, 33, 34, 35, 36, 37] → g1 k = s (G.C k) := fun k hk => by rw [← hg1, set_ne (by rintro rfl; revert hk; decide)]
  have d1 : g1 12 = BitVec.ofNat 32 log.length := by rw [← hg1, set_eq]
  have a1 : g1 4 = 0 := by rw [← hg1, set_ne (by decide), g4]
  have b1 : g1 11 = BitVec.ofNat 32 (3 * log.length + 2 + 1) := by rw [← hg1, set_ne (by decide), g11]
  clear hg1
  refine Does.seq (pop_does hk r1 (q := 3 * log.length + 2) (i := 35) (j := 32) n1 (by omega) (by decide) (by decide) (by decide) (by decide) (by decide) rfl rfl ((F1 9 (by decide)).trans g9) a1 b1 fun g2 s2 r2 f2 o2 a2 _ b2 => ?_)
  rw [q2] at o2
  have F2 : ∀ k, k ∉ [2, 5, 6, 3, 4, 7, 11, 12, 32, 33, 34, 35, 36, 37] → g2 k = s (G.C k) := fun k hk => by rw [f2 k (by simp only [List.mem_cons, List.not_mem_nil, or_false, not_or] at hk ⊢; simp [hk]), F1 k hk]
  have d2 : g2 12 = BitVec.ofNat 32 log.length := by rw [f2 12 (by decide), d1]
  clear f2 F1 r1 a1 b1 d1
  refine Does.seq (pop_does hk r2 (q := 3 * log.length + 1) (i := 36) (j := 33) n2 (by omega) (by decide) (by decide) (by decide) (by decide) (by decide) rfl rfl ((F2 9 (by decide)).trans g9) a2 b2 fun g3 s3 r3 f3 o3 a3 _ b3 => ?_)
  rw [q1] at o3
  have F3 : ∀ k, k ∉ [2, 5, 6, 3, 4, 7, 11, 12, 32, 33, 34, 35, 36, 37] → g3 k = s (G.C k) := fun k hk => by rw [f3 k (by simp only [List.mem_cons, List.not_mem_nil, or_false, not_or] at hk ⊢; simp [hk]), F2 k hk]
  have d3 : g3 12 = BitVec.ofNat 32 log.length := by rw [f3 12 (by decide), d2]
  have o2 : g3 35 = n := by rw [f3 35 (by decide), o2]
  clear f3 F2 r2 a2 b2 d2
  refine Does.seq (pop_does hk r3 (q := 3 * log.length) (i := 37) (j := 34) n3 (by omega) (by decide) (by decide) (by decide) (by decide) (by decide) rfl rfl ((F3 9 (by decide)).trans g9) a3 b3 fun g4' s4 r4 f4 o4 a4 _ b4 => ?_)
  rw [q0] at o4
  have F4 : ∀ k, k ∉ [2, 5, 6, 3, 4, 7, 11, 12, 32, 33, 34, 35, 36, 37] → s4 (G.C k) = s (G.C k) ∨ 47 ≤ k := fun k hk => by
    rcases Nat.lt_or_ge k 47 with hl | hl
    · left
      rw [r4.c k hl, f4 k (by simp only [List.mem_cons, List.not_mem_nil, or_false, not_or] at hk ⊢; simp [hk]), F3 k hk]
    · exact Or.inr hl
  have F : ∀ k, k < 47 → k ∉ [2, 5, 6, 3, 4, 7, 11, 12, 32, 33, 34, 35, 36, 37] → s4 (G.C k) = s (G.C k) := fun k hl hk => (F4 k hk).resolve_right (by omega)
  have v12 : s4 (G.C 12) = BitVec.ofNat 32 log.length := by rw [r4.c 12 (by decide), f4 12 (by decide), d3]
  have v11 : s4 (G.C 11) = BitVec.ofNat 32 (3 * log.length) := by rw [r4.c 11 (by decide), b4]
  have v4 : s4 (G.C 4) = 0 := by rw [r4.c 4 (by decide), a4]
  have o1v : Src.valM s4 (.var G.o1) = n := by rw [Src.valM, show G.o1 + 348 = G.C 35 from rfl, r4.c 35 (by decide), f4 35 (by decide), o2]
  have o2v : Src.valM s4 (.var G.o2) = p := by rw [Src.valM, show G.o2 + 348 = G.C 36 from rfl, r4.c 36 (by decide), f4 36 (by decide), o3]
  have o3v : Src.valM s4 (.var G.o3) = d := by rw [Src.valM, show G.o3 + 348 = G.C 37 from rfl, r4.c 37 (by decide), o4]
  have oo := r4.o
  clear f4 F3 F4 r3 a3 b3 d3 r4 o4 a4 b4 o2 o3
  have S : ∀ x, x ∈ G.np :: repScr G.rend G.cpc G.ls ++ [G.cpc + 348, G.cpc + 352] → x ∈ G.scr := by
    intro x hx
    simp only [repScr, List.cons_append, List.nil_append, List.mem_cons, List.not_mem_nil, or_false] at hx
    rcases hx with rfl | rfl | rfl | rfl | rfl | rfl | rfl | rfl | rfl | rfl | rfl
    · exact G.C_mem (i := 10) (by decide)
    · exact G.C_mem (i := 0) (by decide)
    · exact G.C_mem (i := 1) (by decide)
    · exact G.C_mem (i := 2) (by decide)
    · exact G.C_mem (i := 3) (by decide)
    · exact G.C_mem (i := 4) (by decide)
    · exact G.C_mem (i := 5) (by decide)
    · exact G.C_mem (i := 6) (by decide)
    · exact G.C_mem (i := 7) (by decide)
    · exact G.C_mem (i := 8) (by decide)
    · exact G.C_mem (i := 9) (by decide)
  have S' : ∀ i, i < 47 → i ∉ [0, 1, 2, 3, 4, 5, 6, 7, 10] → G.C i ∉ G.np :: repScr G.rend G.cpc G.ls := by
    intro i hi hn hm
    have key : ∀ j, j ∈ [0, 1, 2, 3, 4, 5, 6, 7, 10] → G.C i ≠ G.C j := fun j hj => PCfg.C_inj nd hi (by revert j; decide) (by rintro rfl; exact hn hj)
    simp only [repScr, List.mem_cons, List.not_mem_nil, or_false] at hm
    rcases hm with e | e | e | e | e | e | e | e | e
    · exact key 10 (by decide) e
    · exact key 0 (by decide) e
    · exact key 1 (by decide) e
    · exact key 2 (by decide) e
    · exact key 3 (by decide) e
    · exact key 4 (by decide) e
    · exact key 5 (by decide) e
    · exact key 6 (by decide) e
    · exact key 7 (by decide) e
  refine Does.seq ((C36_repmovsd hw hu.rep hu.fin hu.call hu.back (s := s4) ((F 9 (by decide) (by decide)).trans g9) v4 ⟨PCfg.C_inj nd (i := 10) (j := 8) (by decide) (by decide) (by decide),
    PCfg.C_inj nd (i := 10) (j := 9) (by decide) (by decide) (by decide)⟩ ?_).mono fun s5 h5 => Does.skip ?_)
  · rw [o1v, o2v, o3v]
    exact ⟨fun i hi => ⟨(hr i hi).1.1, (hr i hi).1.2.1, fun h => (hr i hi).1.2.2.1 (S _ h)⟩, fun i hi => ⟨(hr i hi).2.1, fun h => (hr i hi).2.2.1 (S _ h)⟩⟩
  rw [o1v, o2v, o3v] at h5
  obtain ⟨z1, z2, z3⟩ := h5
  have outC : ∀ k, k < 47 → k ∉ [0, 1, 2, 3, 4, 5, 6, 7, 10] → s5 (G.C k) = s4 (G.C k) := fun k hk hn => by
    rw [z3 _ (S' k hk hn), movsd_out _ _ _ _ _ (fun i hi e => (hr i hi).1.2.2.1 (e ▸ G.C_mem hk))]
  have out2 : ∀ k, k < 47 → k ∉ [0, 1, 10, 2, 5, 6, 3, 4, 7, 11, 12, 32, 33, 34, 35, 36, 37] → s5 (G.C k) = s (G.C k) := fun k hk hn => by
    simp only [List.mem_cons, List.not_mem_nil, or_false, not_or] at hn
    rw [outC k hk (by simp [hn]), F k hk (by simp [hn])]
  have nS : ∀ x, x ∉ G.scr → x ∉ G.np :: repScr G.rend G.cpc G.ls := fun x hx h => hx (S x (List.mem_append_left _ h))
  refine ⟨⟨(outC 11 (by decide) (by decide)).trans v11, (outC 12 (by decide) (by decide)).trans v12, by omega, z1, (out2 8 (by decide) (by decide)).trans h.cpc, z2.trans ((F 8 (by decide) (by decide)).trans h.cpc),
    (out2 9 (by decide) (by decide)).trans h.mdc, (out2 16 (by decide) (by decide)).trans h.mdd, (out2 20 (by decide) (by decide)).trans h.mdv, (out2 24 (by decide) (by decide)).trans h.mdp,
    (out2 28 (by decide) (by decide)).trans h.mdq, (out2 43 (by decide) (by decide)).trans h.mdn, ?_, ?_⟩, out2 31 (by decide) (by decide)⟩
  · intro i d' p' n' hi
    have hil := (List.getElem?_eq_some_iff.1 hi).1
    have st : ∀ q, q < 3 * G.cap → s5 (G.pb + 4 * q) = s (G.pb + 4 * q) := fun q hq => by
      have hs : G.pb + 4 * q ∉ G.scr := (hk.pl q hq).2.2
      rw [z3 _ (nS _ hs), movsd_out _ _ _ _ _ (fun i hi e => (hr i hi).1.2.2.2 ⟨q, hq, e⟩), oo _ hs]
    rw [st _ (by omega), st _ (by omega), st _ (by omega)]
    exact h.stk i d' p' n' (by rw [List.getElem?_append_left hil]; exact hi)
  · intro x hx hs
    rw [z3 _ (nS _ hx)]
    refine movsd_congr (S := G.scr ++ G.stkL) _ _ _ (fun y hy => ?_) (fun i hi hm => ?_) x (fun hm => ?_)
    · rw [List.mem_append, not_or, PCfg.mem_stkL] at hy
      rw [oo y hy.1, h.mem y hy.1 hy.2]
    · rw [List.mem_append, PCfg.mem_stkL] at hm
      exact hm.elim (hr i hi).2.2.1 (hr i hi).2.2.2
    · rw [List.mem_append, PCfg.mem_stkL] at hm
      exact hm.elim hx hs

theorem unpatch_body {L : Layout} (hw : L.Wf) {G : PCfg} (hk : POk L G) {t0 cn rd fe back : Nat} (hu : UOk L G t0 cn rd fe back) (n1 n2 n3 : Nat) {log : List PRec} {m : Mem} {c : W} {s : Mem}
    (h : PIs G log m c s) (hr : ∀ r ∈ log, RecOk L G r) : Does L (unpatchBody L G cn fe back n1 n2 n3) s fun s' => PIs G [] (undo log m) c s' ∧ s' G.ru = s G.ru := by
  have hcap := hk.lt.1
  refine Does.loop (fun n s' => ∃ log' m', PIs G log' m' c s' ∧ n = log'.length ∧ undo log' m' = undo log m ∧ s' G.ru = s G.ru ∧ ∀ r ∈ log', RecOk L G r) ?_ (n := log.length) ⟨log, m, h, rfl, rfl, rfl, hr⟩
  rintro n s' ⟨log', m', h', rfl, e1, e2, hr'⟩
  have hl := h'.len
  refine Does.skip ⟨?_, ?_, ?_⟩
  · intro q hq
    simp only [List.mem_singleton] at hq
    subst hq
    exact cMem_ok (hk.cells _ (G.C_mem (i := 11) (by decide))) _ _ _
  all_goals
    have hh : holdsAll s' [cMem (G.ps + 348) .atLeast 1] = decide (1 ≤ 3 * log'.length) := by
      simp only [holdsAll_cons, holdsAll_nil, cMem_holds, compare, h'.ps, Bool.and_true]
      congr 1
      rw [BitVec.le_def, BitVec.toNat_ofNat, Nat.mod_eq_of_lt (by omega)]
      rfl
    rw [hh]
    intro hd
  · obtain rfl : log' = [] := List.length_eq_zero_iff.1 (by have := of_decide_eq_false hd; omega)
    rw [← e1]
    exact ⟨h', e2⟩
  · have hne : log' ≠ [] := by rintro rfl; exact absurd hd (by decide)
    obtain ⟨l, r, rfl⟩ : ∃ l r, log' = l ++ [r] := ⟨_, _, (List.dropLast_concat_getLast hne).symm⟩
    obtain ⟨d, p, n⟩ := r
    refine (unpatch_step hw hk hu n1 n2 n3 h' (hr' _ (by simp))).mono fun s2 h2 => Does.skip ⟨l.length, by rw [List.length_append, List.length_singleton]; omega, l, _, h2.1, rfl, ?_, h2.2.trans e2, fun r hr => hr' r (by simp [hr])⟩
    rw [← e1]
    simp only [undo, List.foldr_append, List.foldr_cons, List.foldr_nil]

end Eud.SC
