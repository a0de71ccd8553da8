import Verif.Lib.PatchFun
/-
C47: `f_blockpatch_epd` (mempatch.py:65-109).
-/

namespace Eud.SC

/-! ## The branch that sets the length of the last chunk -/

def EndRel (bn cd eb cont : Nat) (s s' : Mem) : Prop :=
  s (eb + 4) = BitVec.ofNat 32 cont ∧ s (bn + 352) = pmod .set ∧
    s' = if s (bn + 348) ≤ 255 then sets [(eb + 4, BitVec.ofNat 32 bn), (bn + 344, epd (cd + 348)), (bn + 4, BitVec.ofNat 32 cont), (cd + 348, s (bn + 348))] s else s

/-- mempatch.py:96-103: the actions of `endbranch`. -/
def endActs (bn cd eb cont : Nat) : List PA :=
  [(eb + 4, BitVec.ofNat 32 bn), (bn + 344, epd (cd + 348)), (bn + 4, BitVec.ofNat 32 cont)].map fun r => aMem r.1 .set r.2

theorem end_code {L : Layout} (hw : L.Wf) {bn cd eb cont : Nat} (hv : PVar L bn) (ce : L.cell (eb + 4)) (cc : L.cell (cd + 348)) (ec : EpdOK (cd + 348))
    (hb : (⟨eb, ⟨[cMem (bn + 348) .atMost 255].map PC.c, (endActs bn cd eb cont).map PA.a⟩, none, false⟩ : SBlk) ∈ L.P.blks) (lt : bn < 2 ^ 32 ∧ cont < 2 ^ 32)
    (nd : (pvDw bn ++ [cd + 348, eb + 4]).Nodup) (r b k : Nat) : Code L r b k (.prim (EndRel bn cd eb cont)) eb cont := by
  refine .prim ?_
  rintro s s' ⟨h1, h2, rfl⟩
  simp only [pvDw, List.cons_append, List.nil_append, List.nodup_cons, List.mem_cons, not_or, List.not_mem_nil, not_false_eq_true, List.nodup_nil, and_true] at nd
  have hd := Layout.Runs.dyn hw (t := eb) hb ce.2 ⟨cMem_static _ _ _, trivial⟩ ⟨aMem_static _ _ _, aMem_static _ _ _, aMem_static _ _ _, trivial⟩ (s := s) (fun q hq => by
      simp only [List.mem_singleton] at hq
      subst hq
      exact cMem_ok hv.val _ _ _) (fun _ => ⟨fun h => (by cases h), ce, fun h => (by cases h), hv.dst, fun h => (by cases h), hv.nxt, trivial⟩)
  have hh : holdsAll s [cMem (bn + 348) .atMost 255] = decide (s (bn + 348) ≤ 255) := by
    simp only [holdsAll_cons, holdsAll_nil, cMem_holds, compare, Bool.and_true]
  by_cases hc : s (bn + 348) ≤ 255
  · rw [if_pos (by rw [hh]; exact decide_eq_true hc), endActs, runPA_setL] at hd
    rw [if_pos hc]
    have ee : sets [(eb + 4, BitVec.ofNat 32 bn), (bn + 344, epd (cd + 348)), (bn + 4, BitVec.ofNat 32 cont), (cd + 348, s (bn + 348))] s =
        (sets [(eb + 4, BitVec.ofNat 32 bn), (bn + 344, epd (cd + 348)), (bn + 4, BitVec.ofNat 32 cont)] s).set (cd + 348) (s (bn + 348)) := rfl
    rw [ee]
    have nl : ([(eb + 4, BitVec.ofNat 32 bn), (bn + 344, epd (cd + 348)), (bn + 4, BitVec.ofNat 32 cont)].map Prod.fst).Nodup := by
      simp only [List.map_cons, List.map_nil, List.nodup_cons, List.mem_cons, not_or, List.not_mem_nil, not_false_eq_true, List.nodup_nil, and_true]; grind
    have w : ∀ x u, (x, u) ∈ [(eb + 4, BitVec.ofNat 32 bn), (bn + 344, epd (cd + 348)), (bn + 4, BitVec.ofNat 32 cont)] → sets [(eb + 4, BitVec.ofNat 32 bn), (bn + 344, epd (cd + 348)), (bn + 4, BitVec.ofNat 32 cont)] s x = u :=
      fun x u h => sets_at nl h
    have v1 : ∀ x, x ≠ eb + 4 → x ≠ bn + 344 → x ≠ bn + 4 → sets [(eb + 4, BitVec.ofNat 32 bn), (bn + 344, epd (cd + 348)), (bn + 4, BitVec.ofNat 32 cont)] s x = s x := fun x h1 h2 h3 => sets_out (by simp [h1, h2, h3])
    have q1 := w (eb + 4) (BitVec.ofNat 32 bn) (by simp)
    have q2 := w (bn + 344) (epd (cd + 348)) (by simp)
    have q3 := w (bn + 4) (BitVec.ofNat 32 cont) (by simp)
    have q4 := v1 (bn + 348) (by grind) (by grind) (by grind)
    have q5 := (v1 (bn + 352) (by grind) (by grind) (by grind)).trans h2
    generalize sets [(eb + 4, BitVec.ofNat 32 bn), (bn + 344, epd (cd + 348)), (bn + 4, BitVec.ofNat 32 cont)] s = s1 at *
    rw [q1, BitVec.toNat_ofNat, Nat.mod_eq_of_lt lt.1] at hd
    have g1 := Layout.Runs.pvar (L := L) hv (s := s1) q5 (d := cd + 348) q2 ec cc
    rw [set_ne (show bn + 4 ≠ cd + 348 by grind), q3, BitVec.toNat_ofNat, Nat.mod_eq_of_lt lt.2, q4] at g1
    exact hd.trans g1
  · rw [if_neg (by rw [hh]; simpa using hc), h1, BitVec.toNat_ofNat, Nat.mod_eq_of_lt lt.2] at hd
    rw [if_neg hc]
    exact hd

/-! ## Copies as steps -/

theorem rep_does {L : Layout} (hw : L.Wf) {G : PCfg} (hk : POk L G) {t0 cn rd fe back : Nat} (hr : RepOk L G.rend G.cpc t0 G.ls cn rd fe) (hF : FuncEnd L fe G.np []) {dst src cnt : Src}
    (hc : CallOk L G.np [] (repArgs G.rend G.ls dst src cnt) (repScr G.rend G.cpc G.ls)) (hb : back < 2 ^ 32) {g e s : Mem} {Q : Mem → Prop} (h : PRep G g e s) (h9 : g 9 = pmod .set) (h4 : g 4 = 0) {D P : W} {n : Nat}
    (ed : dst.valM s = D) (es : src.valM s = P) (en : (cnt.valM s).toNat = n) (ht : ∀ i < n, PTarget L G (D + BitVec.ofNat 32 i)) (hs : ∀ i < n, PTarget L G (P + BitVec.ofNat 32 i))
    (hQ : ∀ g' s', PRep G g' (movsd n D P e) s' → (∀ k, k < 47 → k ∉ [0, 1, 2, 3, 4, 5, 6, 7, 10] → g' k = g k) → g' 4 = 0 → g' 7 = g 8 → Q s') :
    Does L (.prim (CallRel L fe G.np back (.prim (RepRel L G.rend G.cpc G.ls cn fe)) [] (repArgs G.rend G.ls dst src cnt))) s Q := by
  have nd := hk.nd
  have S : ∀ x, x ∈ G.np :: repScr G.rend G.cpc G.ls ++ [G.cpc + 348, G.cpc + 352] → x ∈ G.scr := by
    intro x hx
    simp only [repScr, List.cons_append, List.nil_append, List.mem_cons, List.not_mem_nil, or_false] at hx
    rcases hx with rfl | rfl | rfl | rfl | rfl | rfl | rfl | rfl | rfl | rfl | rfl
    · exact G.C_mem (i := 10) (by decide)
    · exact G.C_mem (i := 0) (by decide)
    · exact G.C_mem (i := 1) (by decide)
    · exact G.C_mem (i := 2) (by decide)
    · exact G.C_mem (i := 3) (by decide)
    · exact G.C_mem (i := 4) (by decide)
    · exact G.C_mem (i := 5) (by decide)
    · exact G.C_mem (i := 6) (by decide)
    · exact G.C_mem (i := 7) (by decide)
    · exact G.C_mem (i := 8) (by decide)
    · exact G.C_mem (i := 9) (by decide)
  have S' : ∀ i, i < 47 → i ∉ [0, 1, 2, 3, 4, 5, 6, 7, 10] → G.C i ∉ G.np :: repScr G.rend G.cpc G.ls := by
    intro i hi hn hm
    have key : ∀ j, j ∈ [0, 1, 2, 3, 4, 5, 6, 7, 10] → G.C i ≠ G.C j := fun j hj => PCfg.C_inj nd hi (by revert j; decide) (by rintro rfl; exact hn hj)
    simp only [repScr, List.mem_cons, List.not_mem_nil, or_false] at hm
    rcases hm with e | e | e | e | e | e | e | e | e
    · exact key 10 (by decide) e
    · exact key 0 (by decide) e
    · exact key 1 (by decide) e
    · exact key 2 (by decide) e
    · exact key 3 (by decide) e
    · exact key 4 (by decide) e
    · exact key 5 (by decide) e
    · exact key 6 (by decide) e
    · exact key 7 (by decide) e
  refine (C36_repmovsd hw hr hF hc hb (s := s) ((h.c 9 (by decide)).trans h9) ((h.c 4 (by decide)).trans h4) ⟨PCfg.C_inj nd (i := 10) (j := 8) (by decide) (by decide) (by decide),
    PCfg.C_inj nd (i := 10) (j := 9) (by decide) (by decide) (by decide)⟩ ?_).mono fun s5 h5 => ?_
  · rw [ed, es, en]
    exact ⟨fun i hi => ⟨(ht i hi).1, (ht i hi).2.1, fun h => (ht i hi).2.2.1 (S _ h)⟩, fun i hi => ⟨(hs i hi).2.1.2, fun h => (hs i hi).2.2.1 (S _ h)⟩⟩
  rw [ed, es, en] at h5
  obtain ⟨z1, z2, z3⟩ := h5
  refine hQ (fun i => s5 (G.C i)) s5 ⟨fun _ _ => rfl, fun x hx => ?_⟩ (fun k hk hn => ?_) z1 (z2.trans (h.c 8 (by decide)))
  · rw [z3 x fun hm => hx (S x (List.mem_append_left _ hm))]
    exact movsd_congr (S := G.scr) _ _ _ h.o (fun i hi => (hs i hi).2.2.1) x hx
  · show s5 (G.C k) = g k
    rw [z3 _ (S' k hk hn), movsd_out _ _ _ _ _ (fun i hi e => (ht i hi).2.2.1 (e ▸ G.C_mem hk)), h.c k hk]

/-! ## The function -/

/-- One chunk: the two blocks are swapped through the buffer. -/
def blkSwap (T d p : W) (k : Nat) (m : Mem) : Mem := movsd k p T (movsd k d p (movsd k T d m))

/-- What the loop does: every chunk is at the start of the blocks. -/
def blkIter (T d p : W) (n : Nat) (m : Mem) : Mem := if n = 0 then m else blkIter T d p (n - 256) (blkSwap T d p (min n 256) m)
termination_by n

/-- mempatch.py:105-107: the body of the loop after `contpoint`. -/
def blkCopies (L : Layout) (G : PCfg) (cn fe b1 b2 b3 : Nat) : List Stmt :=
  [.prim (CallRel L fe G.np b1 (.prim (RepRel L G.rend G.cpc G.ls cn fe)) [] (repArgs G.rend G.ls (.const (epd G.tb)) (.var G.bd) (.var G.cd))),
    .prim (CallRel L fe G.np b2 (.prim (RepRel L G.rend G.cpc G.ls cn fe)) [] (repArgs G.rend G.ls (.var G.bd) (.var G.bs) (.var G.cd))),
    .prim (CallRel L fe G.np b3 (.prim (RepRel L G.rend G.cpc G.ls cn fe)) [] (repArgs G.rend G.ls (.var G.bs) (.const (epd G.tb)) (.var G.cd)))]

/-- mempatch.py:95-108: the loop. -/
def blkLoop (L : Layout) (G : PCfg) (cont cn fe b1 b2 b3 : Nat) : Stmt :=
  .loop true .skip [cMem (G.bn + 348) .exactly 0] (.seqs (.prim (EndRel G.bn G.cd G.eb cont) :: .trig [] [aMem (G.bn + 348) .sub 256] :: blkCopies L G cn fe b1 b2 b3)) .skip

/-- mempatch.py:65-109 `f_blockpatch_epd`. -/
def blkBody (L : Layout) (G : PCfg) (n1 cont cn fe b1 b2 b3 : Nat) : Stmt :=
  .seqs [.prim (ISetRel L .set (.const (epd G.pb)) (.var G.ps) (.var G.bd)), .trig [] [aMem (G.ps + 348) .add 1], .prim (ISetRel L .set (.const (epd G.pb)) (.var G.ps) (.var G.bs)), .trig [] [aMem (G.ps + 348) .add 1],
    .prim (PushRel L G.ps G.bn n1 (epd G.pb)), .trig [] [aMem (G.ps + 348) .add 1],
    .asg [⟨G.dws + 348, .add, .const 1⟩, ⟨G.cd + 348, .set, .const 256⟩, ⟨G.eb + 4, .set, .const (BitVec.ofNat 32 cont)⟩], blkLoop L G cont cn fe b1 b2 b3]

/-- Static facts of the calls to `f_repmovsd_epd`. -/
structure BOk (L : Layout) (G : PCfg) (t0 cn rd fe b1 b2 b3 : Nat) : Prop where
  rep : RepOk L G.rend G.cpc t0 G.ls cn rd fe
  fin : FuncEnd L fe G.np []
  c1 : CallOk L G.np [] (repArgs G.rend G.ls (.const (epd G.tb)) (.var G.bd) (.var G.cd)) (repScr G.rend G.cpc G.ls)
  c2 : CallOk L G.np [] (repArgs G.rend G.ls (.var G.bd) (.var G.bs) (.var G.cd)) (repScr G.rend G.cpc G.ls)
  c3 : CallOk L G.np [] (repArgs G.rend G.ls (.var G.bs) (.const (epd G.tb)) (.var G.cd)) (repScr G.rend G.cpc G.ls)
  back : b1 < 2 ^ 32 ∧ b2 < 2 ^ 32 ∧ b3 < 2 ^ 32

/-- Indices that the loop leaves alone. -/
def blkKeep : List Nat := [8, 9, 11, 12, 16, 20, 24, 28, 38, 39, 43, 46]

theorem blk_step {L : Layout} (hw : L.Wf) {G : PCfg} (hk : POk L G) {t0 cn rd fe b1 b2 b3 : Nat} (hu : BOk L G t0 cn rd fe b1 b2 b3) {cont n : Nat} (hn : n < 2 ^ 32) {g e s : Mem} {Q : Mem → Prop} (h : PRep G g e s)
    (h9 : g 9 = pmod .set) (h43 : g 43 = pmod .set) (h4 : g 4 = 0) (h42 : g 42 = BitVec.ofNat 32 n) (h44 : g 44 = 256) (h45 : g 45 = BitVec.ofNat 32 cont)
    (hd : ∀ i < min n 256, PTarget L G (g 38 + BitVec.ofNat 32 i)) (hp : ∀ i < min n 256, PTarget L G (g 39 + BitVec.ofNat 32 i))
    (hQ : ∀ g' s', PRep G g' (blkSwap (epd G.tb) (g 38) (g 39) (min n 256) e) s' → (∀ k ∈ blkKeep, g' k = g k) → g' 4 = 0 → g' 7 = g 8 → g' 42 = BitVec.ofNat 32 (n - 256) →
      (256 ≤ n → g' 44 = 256 ∧ g' 45 = BitVec.ofNat 32 cont) → Q s') :
    Does L (.seqs (.prim (EndRel G.bn G.cd G.eb cont) :: .trig [] [aMem (G.bn + 348) .sub 256] :: blkCopies L G cn fe b1 b2 b3)) s Q := by
  have nd := hk.nd
  have cell : ∀ i, i < 47 → L.cell (G.C i) := fun i hi => hk.cells _ (G.C_mem hi)
  have e42 : s (G.bn + 348) = BitVec.ofNat 32 n := (h.c 42 (by decide)).trans h42
  have le : (BitVec.ofNat 32 n ≤ (255 : W)) ↔ n ≤ 255 := by
    rw [BitVec.le_def, BitVec.toNat_ofNat, Nat.mod_eq_of_lt hn]; rfl
  have key : ∀ g1 s1, PRep G g1 e s1 → (∀ k ∈ blkKeep, g1 k = g k) → g1 4 = 0 → g1 42 = BitVec.ofNat 32 n → g1 44 = BitVec.ofNat 32 (min n 256) → (256 ≤ n → g1 45 = BitVec.ofNat 32 cont) →
      Does L (.seqs (.trig [] [aMem (G.bn + 348) .sub 256] :: blkCopies L G cn fe b1 b2 b3)) s1 Q := by
    intro g1 s1 r1 F1 a1 n1 m1 k1
    have es : arith .sub (BitVec.ofNat 32 n) 256 = BitVec.ofNat 32 (n - 256) := by
      simp only [arith]
      rcases Nat.lt_or_ge n 256 with hl | hl
      · rw [if_pos (by rw [BitVec.lt_def, BitVec.toNat_ofNat, Nat.mod_eq_of_lt hn]; exact hl), Nat.sub_eq_zero_of_le (by omega)]
        rfl
      · rw [if_neg (by rw [BitVec.lt_def, BitVec.toNat_ofNat, Nat.mod_eq_of_lt hn]; exact Nat.not_lt.2 hl)]
        apply BitVec.eq_of_toNat_eq
        rw [BitVec.toNat_sub, BitVec.toNat_ofNat, BitVec.toNat_ofNat]
        show (2 ^ 32 - 256 + n % 2 ^ 32) % 2 ^ 32 = _
        omega
    refine Does.seq (Does.acts ⟨fun h => (by cases h), cell 42 (by decide), trivial⟩ ?_)
    rw [runPA_cons, runPA_nil, aMem_run, show G.bn + 348 = G.C 42 from rfl, r1.c 42 (by decide), n1, es]
    have r2 := r1.setC nd (i := 42) (by decide) (BitVec.ofNat 32 (n - 256))
    generalize s1.set (G.C 42) (BitVec.ofNat 32 (n - 256)) = s2 at r2 ⊢
    have F2 : ∀ k ∈ 44 :: blkKeep, g1.set 42 (BitVec.ofNat 32 (n - 256)) k = g1 k := fun k hk => set_ne (by rintro rfl; revert hk; decide)
    have n2 : g1.set 42 (BitVec.ofNat 32 (n - 256)) 42 = BitVec.ofNat 32 (n - 256) := set_eq _ _ _
    have k2 : g1.set 42 (BitVec.ofNat 32 (n - 256)) 45 = g1 45 := set_ne (by decide)
    have a2 : g1.set 42 (BitVec.ofNat 32 (n - 256)) 4 = 0 := (set_ne (by decide)).trans a1
    generalize g1.set 42 (BitVec.ofNat 32 (n - 256)) = g2 at r2 F2 n2 k2 a2
    have m2 : g2 44 = BitVec.ofNat 32 (min n 256) := (F2 44 (by simp)).trans m1
    have F2 : ∀ k ∈ blkKeep, g2 k = g k := fun k hk => (F2 k (List.mem_cons_of_mem _ hk)).trans (F1 k hk)
    clear r1 F1 n1 a1 m1
    have mn : (BitVec.ofNat 32 (min n 256)).toNat = min n 256 := by rw [BitVec.toNat_ofNat, Nat.mod_eq_of_lt (by omega)]
    have mem47 : ∀ k ∈ blkKeep, k < 47 ∧ k ∉ [0, 1, 2, 3, 4, 5, 6, 7, 10] := by decide
    have tg : ∀ i < min n 256, PTarget L G (epd G.tb + BitVec.ofNat 32 i) := fun i hi => hk.tl.2.2 i (by omega)
    refine Does.seq (rep_does hw hk hu.rep hu.fin hu.c1 hu.back.1 r2 ((F2 9 (by decide)).trans h9) a2 (D := epd G.tb) (P := g 38) (n := min n 256) rfl ((r2.c 38 (by decide)).trans (F2 38 (by decide)))
      (by rw [show Src.valM s2 (.var G.cd) = _ from r2.c 44 (by decide), m2, mn]) tg hd fun g3 s3 r3 f3 a3 _ => ?_)
    have F3 : ∀ k ∈ blkKeep, g3 k = g k := fun k hk => (f3 k (mem47 k hk).1 (mem47 k hk).2).trans (F2 k hk)
    have m3 := (f3 44 (by decide) (by decide)).trans m2
    have n3 := (f3 42 (by decide) (by decide)).trans n2
    have k3 := (f3 45 (by decide) (by decide)).trans k2
    clear r2 F2 a2 m2 n2 k2 f3
    refine Does.seq (rep_does hw hk hu.rep hu.fin hu.c2 hu.back.2.1 r3 ((F3 9 (by decide)).trans h9) a3 (D := g 38) (P := g 39) (n := min n 256) ((r3.c 38 (by decide)).trans (F3 38 (by decide)))
      ((r3.c 39 (by decide)).trans (F3 39 (by decide))) (by rw [show Src.valM s3 (.var G.cd) = _ from r3.c 44 (by decide), m3, mn]) hd hp fun g4 s4 r4 f4 a4 _ => ?_)
    have F4 : ∀ k ∈ blkKeep, g4 k = g k := fun k hk => (f4 k (mem47 k hk).1 (mem47 k hk).2).trans (F3 k hk)
    have m4 := (f4 44 (by decide) (by decide)).trans m3
    have n4 := (f4 42 (by decide) (by decide)).trans n3
    have k4 := (f4 45 (by decide) (by decide)).trans k3
    clear r3 F3 a3 m3 n3 k3 f4
    refine Does.seq (rep_does hw hk hu.rep hu.fin hu.c3 hu.back.2.2 r4 ((F4 9 (by decide)).trans h9) a4 (D := g 39) (P := epd G.tb) (n := min n 256) ((r4.c 39 (by decide)).trans (F4 39 (by decide)))
      rfl (by rw [show Src.valM s4 (.var G.cd) = _ from r4.c 44 (by decide), m4, mn]) hp tg fun g5 s5 r5 f5 a5 c5 => Does.skip ?_)
    refine hQ g5 s5 r5 (fun k hk => (f5 k (mem47 k hk).1 (mem47 k hk).2).trans (F4 k hk)) a5 (c5.trans (F4 8 (by decide))) ((f5 42 (by decide) (by decide)).trans n4) fun h => ⟨?_, ?_⟩
    · rw [f5 44 (by decide) (by decide), m4, Nat.min_eq_right h]
      rfl
    · rw [f5 45 (by decide) (by decide), k4, k1 h]
  refine Does.seq (Does.prim ⟨(h.c 45 (by decide)).trans h45, (h.c 43 (by decide)).trans h43, rfl⟩ ?_)
  rw [e42]
  by_cases hl : n ≤ 255
  · rw [if_pos (le.2 hl)]
    have r := (((h.setC nd (i := 45) (by decide) (BitVec.ofNat 32 G.bn)).setC nd (i := 41) (by decide) (epd (G.cd + 348))).setC nd (i := 40) (by decide) (BitVec.ofNat 32 cont)).setC nd (i := 44) (by decide) (BitVec.ofNat 32 n)
    refine key _ _ r (fun k hk => ?_) ?_ ?_ ?_ (fun h => by omega)
    · rw [set_ne (by rintro rfl; revert hk; decide), set_ne (by rintro rfl; revert hk; decide), set_ne (by rintro rfl; revert hk; decide), set_ne (by rintro rfl; revert hk; decide)]
    · rw [set_ne (by decide), set_ne (by decide), set_ne (by decide), set_ne (by decide), h4]
    · rw [set_ne (by decide), set_ne (by decide), set_ne (by decide), set_ne (by decide), h42]
    · rw [set_eq, Nat.min_eq_left (by omega)]
  · rw [if_neg (fun h => hl (le.1 h))]
    exact key g s h (fun _ _ => rfl) h4 h42 (by rw [h44, Nat.min_eq_right (by omega)]; rfl) (fun _ => h45)

theorem blkSwap_congr {S : List Nat} {T d p : W} {k : Nat} {m m' : Mem} (h : ∀ x, x ∉ S → m x = m' x) (hT : ∀ i < k, epdAddr (T + BitVec.ofNat 32 i) ∉ S) (hd : ∀ i < k, epdAddr (d + BitVec.ofNat 32 i) ∉ S)
    (hp : ∀ i < k, epdAddr (p + BitVec.ofNat 32 i) ∉ S) : ∀ x, x ∉ S → blkSwap T d p k m x = blkSwap T d p k m' x :=
  movsd_congr k p T (movsd_congr k d p (movsd_congr k T d h hd) hp) hT

theorem blkSwap_out {T d p : W} {k : Nat} {m : Mem} {x : Nat} (hT : ∀ i < k, epdAddr (T + BitVec.ofNat 32 i) ≠ x) (hd : ∀ i < k, epdAddr (d + BitVec.ofNat 32 i) ≠ x) (hp : ∀ i < k, epdAddr (p + BitVec.ofNat 32 i) ≠ x) :
    blkSwap T d p k m x = m x := by
  rw [blkSwap, movsd_out _ _ _ _ _ hp, movsd_out _ _ _ _ _ hd, movsd_out _ _ _ _ _ hT]

theorem blkIter_zero (T d p : W) (m : Mem) : blkIter T d p 0 m = m := by rw [blkIter, if_pos rfl]

theorem blkIter_pos (T d p : W) {n : Nat} (h : n ≠ 0) (m : Mem) : blkIter T d p n m = blkIter T d p (n - 256) (blkSwap T d p (min n 256) m) := by rw [blkIter, if_neg h]

theorem blkIter_congr {S : List Nat} {T d p : W} (n : Nat) : ∀ {m m' : Mem}, (∀ x, x ∉ S → m x = m' x) → (∀ i < min n 256, epdAddr (T + BitVec.ofNat 32 i) ∉ S) → (∀ i < min n 256, epdAddr (d + BitVec.ofNat 32 i) ∉ S) →
    (∀ i < min n 256, epdAddr (p + BitVec.ofNat 32 i) ∉ S) → ∀ x, x ∉ S → blkIter T d p n m x = blkIter T d p n m' x := by
  induction n using Nat.strongRecOn with
  | ind n ih =>
    intro m m' h hT hd hp x hx
    by_cases hn : n = 0
    · subst hn
      rw [blkIter_zero, blkIter_zero, h x hx]
    · rw [blkIter_pos _ _ _ hn, blkIter_pos _ _ _ hn]
      exact ih (n - 256) (by omega) (blkSwap_congr h hT hd hp) (fun i hi => hT i (by omega)) (fun i hi => hd i (by omega)) (fun i hi => hp i (by omega)) x hx

theorem blkIter_out {T d p : W} (n : Nat) : ∀ {m : Mem} {x : Nat}, (∀ i < min n 256, epdAddr (T + BitVec.ofNat 32 i) ≠ x) → (∀ i < min n 256, epdAddr (d + BitVec.ofNat 32 i) ≠ x) →
    (∀ i < min n 256, epdAddr (p + BitVec.ofNat 32 i) ≠ x) → blkIter T d p n m x = m x := by
  induction n using Nat.strongRecOn with
  | ind n ih =>
    intro m x hT hd hp
    by_cases hn : n = 0
    · subst hn
      rw [blkIter_zero]
    · rw [blkIter_pos _ _ _ hn, ih (n - 256) (by omega) (fun i hi => hT i (by omega)) (fun i hi => hd i (by omega)) (fun i hi => hp i (by omega)), blkSwap_out hT hd hp]

theorem blk_loop {L : Layout} (hw : L.Wf) {G : PCfg} (hk : POk L G) {t0 cn rd fe b1 b2 b3 : Nat} (hu : BOk L G t0 cn rd fe b1 b2 b3) {cont n : Nat} (hn : n < 2 ^ 32) {g e s : Mem} {Q : Mem → Prop} (h : PRep G g e s)
    (h9 : g 9 = pmod .set) (h43 : g 43 = pmod .set) (h4 : g 4 = 0) (h7 : g 7 = g 8) (h42 : g 42 = BitVec.ofNat 32 n) (h44 : g 44 = 256) (h45 : g 45 = BitVec.ofNat 32 cont)
    (hd : ∀ i < min n 256, PTarget L G (g 38 + BitVec.ofNat 32 i)) (hp : ∀ i < min n 256, PTarget L G (g 39 + BitVec.ofNat 32 i))
    (hQ : ∀ g' s', PRep G g' (blkIter (epd G.tb) (g 38) (g 39) n e) s' → (∀ k ∈ blkKeep, g' k = g k) → g' 4 = 0 → g' 7 = g 8 → Q s') : Does L (blkLoop L G cont cn fe b1 b2 b3) s Q := by
  refine Does.loop (fun k s' => ∃ g' e', PRep G g' e' s' ∧ k ≤ n ∧ (∀ k ∈ blkKeep, g' k = g k) ∧ g' 4 = 0 ∧ g' 7 = g 8 ∧ g' 42 = BitVec.ofNat 32 k ∧ (k ≠ 0 → g' 44 = 256 ∧ g' 45 = BitVec.ofNat 32 cont) ∧
    blkIter (epd G.tb) (g 38) (g 39) k e' = blkIter (epd G.tb) (g 38) (g 39) n e) ?_ (n := n) ⟨g, e, h, Nat.le_refl _, fun _ _ => rfl, h4, h7, h42, fun _ => ⟨h44, h45⟩, rfl⟩
  rintro k s' ⟨g', e', r, hkn, F, a4, a7, a42, a44, ee⟩
  have hh : holdsAll s' [cMem (G.bn + 348) .exactly 0] = decide (k = 0) := by
    simp only [holdsAll_cons, holdsAll_nil, cMem_holds, compare, Bool.and_true, show s' (G.bn + 348) = _ from r.c 42 (by decide), a42]
    congr 1
    rw [eq_iff_iff]
    constructor
    · intro e
      have := congrArg BitVec.toNat e
      rw [BitVec.toNat_ofNat, Nat.mod_eq_of_lt (by omega)] at this
      exact this
    · rintro rfl
      rfl
  refine Does.skip ⟨?_, ?_, ?_⟩
  · intro q hq
    simp only [List.mem_singleton] at hq
    subst hq
    exact cMem_ok (hk.cells _ (G.C_mem (i := 42) (by decide))) _ _ _
  · intro h0
    rw [hh] at h0
    obtain rfl := of_decide_eq_true h0
    rw [blkIter_zero] at ee
    subst ee
    exact hQ g' s' r F a4 a7
  · intro h1
    rw [hh] at h1
    have hk0 : k ≠ 0 := by simpa using h1
    have e38 := F 38 (by decide)
    have e39 := F 39 (by decide)
    refine blk_step hw hk hu (n := k) (by omega) r ((F 9 (by decide)).trans h9) ((F 43 (by decide)).trans h43) a4 a42 (a44 hk0).1 (a44 hk0).2 (by rw [e38]; exact fun i hi => hd i (by omega)) (by rw [e39]; exact fun i hi => hp i (by omega))
      fun g2 s2 r2 F2 x4 x7 x42 x44 => Does.skip ⟨k - 256, by omega, g2, _, r2, by omega, fun j hj => (F2 j hj).trans (F j hj), x4, x7.trans (F 8 (by decide)), x42, fun h => x44 (by omega), ?_⟩
    rw [← ee, blkIter_pos _ _ _ hk0, e38, e39]

/-- A push of an ordinary variable. -/
theorem pushV_does {L : Layout} {G : PCfg} {g e s : Mem} {Q : Mem → Prop} (h : PRep G g e s) {v i : Nat} (hi : i < 47) (hv : v + 348 = G.C i) (hp : PlainEpd (epd G.pb + g 11)) (hc : L.cell (epdAddr (epd G.pb + g 11)))
    (hn : epdAddr (epd G.pb + g 11) ∉ G.scr) (hQ : ∀ s', PRep G g (e.set (epdAddr (epd G.pb + g 11)) (g i)) s' → Q s') :
    Does L (.prim (ISetRel L .set (.const (epd G.pb)) (.var G.ps) (.var v))) s Q := by
  have e1 : s (G.ps + 348) = g 11 := h.c 11 (by decide)
  have e2 : s (v + 348) = g i := by rw [hv, h.c i hi]
  refine Does.prim ⟨?_, ?_, rfl⟩ ?_
  all_goals simp only [Src.valM, e1, e2, arith]
  · exact hp
  · exact hc
  · exact hQ _ (h.setE hn _)

theorem blk_body {L : Layout} (hw : L.Wf) {G : PCfg} (hk : POk L G) {t0 cn rd fe b1 b2 b3 : Nat} (hu : BOk L G t0 cn rd fe b1 b2 b3) (n1 cont : Nat) {log : List PRec} {m : Mem} {c : W} {s : Mem} (h : PIs G log m c s)
    (hl : log.length < G.cap) (hd : ∀ i < min (s (G.bn + 348)).toNat 256, PTarget L G (s (G.bd + 348) + BitVec.ofNat 32 i)) (hp : ∀ i < min (s (G.bn + 348)).toNat 256, PTarget L G (s (G.bs + 348) + BitVec.ofNat 32 i)) :
    Does L (blkBody L G n1 cont cn fe b1 b2 b3) s fun s' =>
      PIs G (log ++ [(s (G.bd + 348), s (G.bs + 348), s (G.bn + 348))]) (blkIter (epd G.tb) (s (G.bd + 348)) (s (G.bs + 348)) (s (G.bn + 348)).toNat m) c s' ∧ s' G.rb = s G.rb := by
  have nd := hk.nd
  have K : ∀ q, q < 3 * G.cap → epdAddr (epd G.pb + BitVec.ofNat 32 q) = G.pb + 4 * q := fun q hq => epdAddr_add hk.al.1 (by have := hk.lt.1; omega)
  have Kc : ∀ q, q < 3 * G.cap → PlainEpd (epd G.pb + BitVec.ofNat 32 q) ∧ L.cell (epdAddr (epd G.pb + BitVec.ofNat 32 q)) ∧ epdAddr (epd G.pb + BitVec.ofNat 32 q) ∉ G.scr := fun q hq => by
    rw [K q hq]; exact hk.pl q hq
  have cell : ∀ i, i < 47 → L.cell (G.C i) := fun i hi => hk.cells _ (G.C_mem hi)
  have e0 := PRep.start G s
  have g11 : s (G.C 11) = BitVec.ofNat 32 (3 * log.length) := h.ps
  have g12 : s (G.C 12) = BitVec.ofNat 32 log.length := h.dws
  generalize hD : s (G.bd + 348) = D at *
  generalize hP : s (G.bs + 348) = P at *
  generalize hN : s (G.bn + 348) = N at *
  have hD : s (G.C 38) = D := hD
  have hP : s (G.C 39) = P := hP
  have hN : s (G.C 42) = N := hN
  obtain ⟨x1, x2, x3⟩ := Kc (3 * log.length) (by omega)
  refine Does.seq (pushV_does e0 (v := G.bd) (i := 38) (by decide) rfl (by rw [g11]; exact x1) (by rw [g11]; exact x2) (by rw [g11]; exact x3) fun s1 r1 => ?_)
  rw [g11, K _ (by omega), hD] at r1
  refine Does.seq (addC_does nd r1 (i := 11) (by decide) rfl 1 (cell 11 (by decide)) fun s2 r2 => ?_)
  rw [g11, ofNat_succ'] at r2
  obtain ⟨x1, x2, x3⟩ := Kc (3 * log.length + 1) (by omega)
  refine Does.seq (pushV_does r2 (v := G.bs) (i := 39) (by decide) rfl (by rw [set_eq]; exact x1) (by rw [set_eq]; exact x2) (by rw [set_eq]; exact x3) fun s3 r3 => ?_)
  rw [set_eq, K _ (by omega), set_ne (by decide), hP] at r3
  refine Does.seq (addC_does nd r3 (i := 11) (by decide) rfl 1 (cell 11 (by decide)) fun s4 r4 => ?_)
  rw [set_eq, ofNat_succ'] at r4
  generalize hg4 : Mem.set _ 11 (BitVec.ofNat 32 (3 * log.length + 1 + 1)) = g4 at r4
  have F4 : ∀ k, k ≠ 11 → g4 k = s (G.C k) := fun k hk => by rw [← hg4, set_ne hk, set_ne hk]
  have t4 : g4 11 = BitVec.ofNat 32 (3 * log.length + 2) := by rw [← hg4, set_eq]
  clear hg4 r1 r2 r3
  obtain ⟨x1, x2, x3⟩ := Kc (3 * log.length + 2) (by omega)
  refine Does.seq (push_does nd r4 n1 (v := G.bn) (j := 40) (Or.inr (Or.inr ⟨rfl, rfl⟩)) ((F4 43 (by decide)).trans h.mdn) (by rw [t4]; exact x1) (by rw [t4]; exact x2) (by rw [t4]; exact x3) fun g5 s5 r5 f5 => ?_)
  rw [t4, K _ (by omega), F4 42 (by decide), hN] at r5
  refine Does.seq (addC_does nd r5 (i := 11) (by decide) rfl 1 (cell 11 (by decide)) fun s6 r6 => ?_)
  rw [f5 11 (by decide) (by decide), t4, ofNat_succ'] at r6
  refine Does.seq (Does.asg ?_ ?_ ?_)
  · intro q hq
    simp only [List.mem_cons, List.not_mem_nil, or_false] at hq
    rcases hq with rfl | rfl | rfl
    · exact cell 12 (by decide)
    · exact cell 44 (by decide)
    · exact cell 45 (by decide)
  · intro q hq v e
    simp only [List.mem_cons, List.not_mem_nil, or_false] at hq
    rcases hq with rfl | rfl | rfl <;> cases e
  have r7 := ((r6.setC nd (i := 12) (by decide) (BitVec.ofNat 32 (log.length + 1))).setC nd (i := 44) (by decide) 256).setC nd (i := 45) (by decide) (BitVec.ofNat 32 cont)
  have er : runAsg [⟨G.dws + 348, .add, .const 1⟩, ⟨G.cd + 348, .set, .const 256⟩, ⟨G.eb + 4, .set, .const (BitVec.ofNat 32 cont)⟩] s6 =
      ((s6.set (G.C 12) (BitVec.ofNat 32 (log.length + 1))).set (G.C 44) 256).set (G.C 45) (BitVec.ofNat 32 cont) := by
    simp only [runAsg, arith, Src.valM]
    rw [show s6 (G.dws + 348) = _ from r6.c 12 (by decide), set_ne (by decide), f5 12 (by decide) (by decide), F4 12 (by decide), g12, ofNat_succ']
    rfl
  rw [er]
  generalize ((s6.set (G.C 12) (BitVec.ofNat 32 (log.length + 1))).set (G.C 44) 256).set (G.C 45) (BitVec.ofNat 32 cont) = s7 at r7 ⊢
  generalize hg7 : Mem.set _ 45 (BitVec.ofNat 32 cont) = g7 at r7
  have F7 : ∀ k, k ∉ [11, 12, 40, 41, 44, 45] → g7 k = s (G.C k) := fun k hk => by
    simp only [List.mem_cons, List.not_mem_nil, or_false, not_or] at hk
    rw [← hg7, set_ne hk.2.2.2.2.2, set_ne hk.2.2.2.2.1, set_ne hk.2.1, set_ne hk.1, f5 k hk.2.2.1 hk.2.2.2.1, F4 k hk.1]
  have t7 : g7 11 = BitVec.ofNat 32 (3 * log.length + 2 + 1) := by rw [← hg7, set_ne (by decide), set_ne (by decide), set_ne (by decide), set_eq]
  have d7 : g7 12 = BitVec.ofNat 32 (log.length + 1) := by rw [← hg7, set_ne (by decide), set_ne (by decide), set_eq]
  have k44 : g7 44 = 256 := by rw [← hg7, set_ne (by decide), set_eq]
  have k45 : g7 45 = BitVec.ofNat 32 cont := by rw [← hg7, set_eq]
  clear hg7 r6 r5 r4 f5 F4 t4 er x1 x2 x3
  have e38 : g7 38 = D := (F7 38 (by decide)).trans hD
  have e39 : g7 39 = P := (F7 39 (by decide)).trans hP
  refine Does.seq (blk_loop hw hk hu (n := N.toNat) N.isLt r7 ((F7 9 (by decide)).trans h.mdc) ((F7 43 (by decide)).trans h.mdn) ((F7 4 (by decide)).trans h.sum)
    ((F7 7 (by decide)).trans ((show s (G.C 7) = s (G.C 8) from h.cp.trans h.cpc.symm).trans (F7 8 (by decide)).symm))
    ((F7 42 (by decide)).trans (by rw [hN, BitVec.ofNat_toNat, BitVec.setWidth_eq])) k44 k45 (by rw [e38]; exact hd) (by rw [e39]; exact hp) fun g8 s8 r8 F8 a8 c8 => Does.skip ?_)
  rw [e38, e39] at r8
  have F : ∀ k ∈ blkKeep, s8 (G.C k) = g7 k := fun k hk => by rw [r8.c k (by revert k; decide), F8 k hk]
  have o := r8.o
  have nk : ∀ q, q < 3 * G.cap → G.pb + 4 * q ∉ G.scr := fun q hq => (hk.pl q hq).2.2
  have tg : ∀ i < min N.toNat 256, PTarget L G (epd G.tb + BitVec.ofNat 32 i) := fun i hi => hk.tl.2.2 i (by omega)
  have bo : ∀ {e : Mem} {q}, q < 3 * G.cap → blkIter (epd G.tb) D P N.toNat e (G.pb + 4 * q) = e (G.pb + 4 * q) := fun hq =>
    blkIter_out _ (fun i hi e => (tg i hi).2.2.2 ⟨_, hq, e⟩) (fun i hi e => (hd i hi).2.2.2 ⟨_, hq, e⟩) (fun i hi e => (hp i hi).2.2.2 ⟨_, hq, e⟩)
  refine ⟨⟨?_, ?_, ?_, (r8.c 4 (by decide)).trans a8, (F 8 (by decide)).trans ((F7 8 (by decide)).trans h.cpc), (r8.c 7 (by decide)).trans (c8.trans ((F7 8 (by decide)).trans h.cpc)),
    (F 9 (by decide)).trans ((F7 9 (by decide)).trans h.mdc), (F 16 (by decide)).trans ((F7 16 (by decide)).trans h.mdd), (F 20 (by decide)).trans ((F7 20 (by decide)).trans h.mdv),
    (F 24 (by decide)).trans ((F7 24 (by decide)).trans h.mdp), (F 28 (by decide)).trans ((F7 28 (by decide)).trans h.mdq), (F 43 (by decide)).trans ((F7 43 (by decide)).trans h.mdn), ?_, ?_⟩,
    (F 46 (by decide)).trans (F7 46 (by decide))⟩
  · rw [show s8 (G.ps + 348) = _ from F 11 (by decide), t7, List.length_append, List.length_singleton, Nat.mul_add]
  · rw [show s8 (G.dws + 348) = _ from F 12 (by decide), d7, List.length_append, List.length_singleton]
  · rw [List.length_append, List.length_singleton]; omega
  · intro i d p n hi
    by_cases hil : i < log.length
    · rw [List.getElem?_append_left hil] at hi
      obtain ⟨q0, q1, q2⟩ := h.stk i d p n hi
      have st : ∀ q, q < 3 * log.length → s8 (G.pb + 4 * q) = s (G.pb + 4 * q) := fun q hq => by
        rw [o _ (nk q (by omega)), bo (by omega), set_ne (by omega), set_ne (by omega), set_ne (by omega)]
      rw [st _ (by omega), st _ (by omega), st _ (by omega)]
      exact ⟨q0, q1, q2⟩
    · have hl2 := (List.getElem?_eq_some_iff.1 hi).1
      rw [List.length_append, List.length_singleton] at hl2
      obtain rfl : i = log.length := by omega
      rw [List.getElem?_concat_length] at hi
      cases hi
      rw [o _ (nk _ (by omega)), o _ (nk _ (by omega)), o _ (nk _ (by omega)), bo (by omega), bo (by omega), bo (by omega)]
      refine ⟨?_, ?_, ?_⟩
      · rw [set_ne (by omega), set_ne (by omega), set_eq]
      · rw [set_ne (by omega), set_eq]
      · rw [set_eq]
  · intro x hx hs
    rw [o _ hx]
    have ns : ∀ {D : W}, PTarget L G D → epdAddr D ∉ G.scr ++ G.stkL := fun ht hm => by
      rw [List.mem_append, PCfg.mem_stkL] at hm
      exact hm.elim ht.2.2.1 ht.2.2.2
    refine blkIter_congr (S := G.scr ++ G.stkL) _ (fun y hy => ?_) (fun i hi => ns (tg i hi)) (fun i hi => ns (hd i hi)) (fun i hi => ns (hp i hi)) x (fun hm => ?_)
    · rw [List.mem_append, not_or, PCfg.mem_stkL] at hy
      have ne : ∀ q, q < 3 * G.cap → y ≠ G.pb + 4 * q := fun q hq e => hy.2 ⟨q, hq, e⟩
      rw [set_ne (ne _ (by omega)), set_ne (ne _ (by omega)), set_ne (ne _ (by omega)), h.mem y hy.1 hy.2]
    · rw [List.mem_append, PCfg.mem_stkL] at hm
      exact hm.elim hx hs

end Eud.SC
