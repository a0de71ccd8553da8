import Verif.Lib.WordWrite
import Verif.Lib.MemReadCp
/-
C34: writing relative to the current player (memio/cpmemio.py:142-273): `f_dwwrite_cp`, `f_dwadd_cp`, `f_dwsubtract_cp`, `f_maskwrite_cp`, `f_bwrite_cp`, `f_wwrite_cp`.
-/

namespace Eud.SC

/-! ## Filling the fields of actions -/

/-- trigger/tpatcher.py: the variables among the operands are copied to the given dwords. -/
def fills : List (Nat × Src) → List Asg
  | [] => []
  | (a, .const _) :: l => fills (l)
  | (a, .var v) :: l => ⟨a, .set, .var v⟩ :: fills l

theorem fills_mem : ∀ {l : List (Nat × Src)} {g : Asg}, g ∈ fills l → ∃ v, (g.a, .var v) ∈ l ∧ g.src = .var v
  | [], _, h => by simp [fills] at h
  | (a, .const _) :: l, g, h => by
    obtain ⟨v, h1, h2⟩ := fills_mem (l := l) h
    exact ⟨v, List.mem_cons_of_mem _ h1, h2⟩
  | (a, .var v) :: l, g, h => by
    rcases List.mem_cons.1 h with rfl | h
    · exact ⟨v, List.mem_cons_self .., rfl⟩
    · obtain ⟨v, h1, h2⟩ := fills_mem (l := l) h
      exact ⟨v, List.mem_cons_of_mem _ h1, h2⟩

theorem fills_only : ∀ (l : List (Nat × Src)) (s : Mem), Only (l.map Prod.fst) s (runAsg (fills l) s)
  | [], s => Only.refl _ s
  | (a, .const _) :: l, s => (fills_only l s).mono fun x hx => List.mem_cons_of_mem _ hx
  | (a, .var v) :: l, s => ((Only.refl _ s).set (by simp) _).trans ((fills_only l _).mono fun x hx => List.mem_cons_of_mem _ hx)

theorem fills_get : ∀ (l : List (Nat × Src)) (s : Mem), (l.map Prod.fst).Nodup → (∀ r ∈ l, ∀ v, r.2 = .var v → v + 348 ∉ l.map Prod.fst) →
    ∀ r ∈ l, ∀ v, r.2 = .var v → runAsg (fills l) s r.1 = s (v + 348)
  | [], _, _, _, r, h, _, _ => by cases h
  | (a, .const c) :: l, s, hn, hs, r, h, v, hv => by
    rcases List.mem_cons.1 h with rfl | h
    · cases hv
    · exact fills_get l s (List.nodup_cons.1 hn).2 (fun r hr v hv e => hs r (List.mem_cons_of_mem _ hr) v hv (List.mem_cons_of_mem _ e)) r h v hv
  | (a, .var u) :: l, s, hn, hs, r, h, v, hv => by
    have hn' := List.nodup_cons.1 hn
    rcases List.mem_cons.1 h with rfl | h
    · cases hv
      show runAsg (fills l) (s.set a (s (u + 348))) a = _
      rw [fills_only l _ _ hn'.1, set_eq]
    · show runAsg (fills l) (s.set a (s (u + 348))) r.1 = _
      rw [fills_get l _ hn'.2 (fun r hr v hv e => hs r (List.mem_cons_of_mem _ hr) v hv (List.mem_cons_of_mem _ e)) r h v hv, set_ne]
      intro e
      exact hs r (List.mem_cons_of_mem _ h) v hv (by rw [e]; exact List.mem_cons_self ..)

/-- The operands that are variables, and where they are copied to. -/
def FillOk (L : Layout) (l : List (Nat × Src)) : Prop := (l.map Prod.fst).Nodup ∧ ∀ r ∈ l, ∀ v, r.2 = .var v → v ∈ L.P.vars ∧ v + 348 ∉ l.map Prod.fst ∧ L.cell r.1

theorem fills_does {L : Layout} {l : List (Nat × Src)} (h : FillOk L l) (s : Mem) :
    Does L (.asg (fills l)) s fun s' => (∀ r ∈ l, r.2.known.getD (s' r.1) = r.2.valM s) ∧ Only (l.map Prod.fst) s s' := by
  refine Does.asg ?_ ?_ ⟨?_, fills_only l s⟩
  · intro g hg
    obtain ⟨v, h1, h2⟩ := fills_mem hg
    exact (h.2 _ h1 v rfl).2.2
  · intro g hg v hv
    obtain ⟨u, h1, h2⟩ := fills_mem hg
    rw [hv] at h2
    cases h2
    exact (h.2 _ h1 v rfl).1
  · intro r hr
    have := fills_get l s h.1 (fun r hr v hv => (h.2 r hr v hv).2.1) r hr
    obtain ⟨a, src⟩ := r
    cases src with
    | const c => rfl
    | var v => exact this v rfl

/-! ## Actions at the current player -/

/-- `SetDeathsX(CurrentPlayer, md, x, 0, k)` at `p`. -/
def cpAct (p : Nat) (md : Mod) (x k : Src) : PA := ⟨⟨some (.cp 0), md, x.known, k.known⟩, some p⟩
/-- `SetMemory(0x6509B0, Add, c)` at `p`. -/
def cpMv (p : Nat) (c : Src) : PA := ⟨⟨some (.mem cpAddr), .add, c.known, some 0xFFFFFFFF⟩, some p⟩

/-- cpmemio.py:145-146, 158-159, 171-172, 266-267: the offset is the number 0. -/
def setCp0 (p : Nat) (md : Mod) (x k : Src) : Stmt := .seq (.asg (fills [(p + 20, x), (p, k)])) (.trig [] [cpAct p md x k])

/-- eudv.py:372-375, 362-369: `-c` for a variable is computed into `t`. -/
def negS (t : Nat) : Src → Stmt
  | .const _ => .skip
  | .var v => .asg [⟨t + 348, .set, .const 0xFFFFFFFF⟩, ⟨t + 348, .sub, .var v⟩, ⟨t + 348, .add, .const 1⟩]
def negSrc (t : Nat) : Src → Src
  | .const c => .const (-c)
  | .var _ => .var t

/-- The operands of the three actions at `p1`, `p2`, `p3`. -/
def cpFills (t p1 p2 p3 : Nat) (c x k : Src) : List (Nat × Src) := [(p1 + 20, c), (p2 + 20, x), (p2, k), (p3 + 20, negSrc t c)]

/-- cpmemio.py:147-152, 160-165, 173-178, 269-273: `DoActions(SetMemory(0x6509B0, Add, c), SetDeathsX(CP, md, x, 0, k), SetMemory(0x6509B0, Add, -c))`. -/
def setCp (t p1 p2 p3 : Nat) (md : Mod) (c x k : Src) : Stmt :=
  .seq (negS t c) (.seq (.asg (fills (cpFills t p1 p2 p3 c x k))) (.trig [] [cpMv p1 c, cpAct p2 md x k, cpMv p3 (negSrc t c)]))

theorem cpAct_run {s : Mem} {p : Nat} {md : Mod} {x k : Src} {v m : W} (hx : x.known.getD (s (p + 20)) = v) (hk : k.known.getD (s p) = m) :
    (cpAct p md x k).run s = s.set (epdAddr (s cpAddr)) (modify md (s (epdAddr (s cpAddr))) v m) := by
  simp only [PA.run, cpAct, SAct.res, Option.getD_some, Act.apply, cpAt0, hx, hk]

theorem cpMv_run {s : Mem} {p : Nat} {c : Src} {v : W} (hc : c.known.getD (s (p + 20)) = v) : (cpMv p c).run s = s.set cpAddr (s cpAddr + v) := by
  simp only [PA.run, cpMv, SAct.res, Option.getD_some, Act.apply, Dst.addr, hc, modify_full, arith]

theorem actsOk_cpAct {L : Layout} {s : Mem} (h : L.cell (epdAddr (s cpAddr))) {p : Nat} {md : Mod} {x k : Src} {ps : List PA} (hr : ActsOk L ps ((cpAct p md x k).run s)) :
    ActsOk L (cpAct p md x k :: ps) s := ⟨(by intro hh; cases hh), by simpa only [cpAct, SAct.res, Option.getD_some, cpAt0] using h, hr⟩

theorem actsOk_cpMv {L : Layout} {s : Mem} (h : L.cell cpAddr) {p : Nat} {c : Src} {ps : List PA} (hr : ActsOk L ps ((cpMv p c).run s)) : ActsOk L (cpMv p c :: ps) s :=
  ⟨(by intro hh; cases hh), by simpa only [cpMv, SAct.res, Option.getD_some, Dst.addr] using h, hr⟩

/-- **C34, `f_dwwrite_cp(0, x)`, `f_dwadd_cp`, `f_dwsubtract_cp`, `f_maskwrite_cp(0, x, k)`** as an action: exactly the dword at the current player changes. -/
theorem C34_cp_zero {L : Layout} {p : Nat} {md : Mod} {x k : Src} {s : Mem} (hf : FillOk L [(p + 20, x), (p, k)]) (hcp : cpAddr ∉ [p + 20, p]) (hc : L.cell (epdAddr (s cpAddr)))
    (hn : epdAddr (s cpAddr) ∉ [p + 20, p]) :
    Does L (setCp0 p md x k) s fun s' => s' (epdAddr (s cpAddr)) = modify md (s (epdAddr (s cpAddr))) (x.valM s) (k.valM s) ∧ Only [epdAddr (s cpAddr), p + 20, p] s s' := by
  unfold setCp0
  refine Does.seq (Does.mono (fills_does hf s) ?_)
  rintro s1 ⟨h1, h2⟩
  have e0 := h2 _ hcp
  refine Does.acts (actsOk_cpAct (by rw [e0]; exact hc) trivial) ?_
  rw [runPA_cons, runPA_nil, cpAct_run (h1 (p + 20, x) (by simp)) (h1 (p, k) (by simp)), e0, h2 _ hn]
  exact ⟨set_eq .., (h2.mono fun y hy => List.mem_cons_of_mem _ hy).set (by simp) _⟩

theorem negS_does {L : Layout} {t : Nat} {c : Src} (hc : ∀ v, c = .var v → v ∈ L.P.vars ∧ L.cell (t + 348) ∧ t ≠ v) (s : Mem) :
    Does L (negS t c) s fun s' => (negSrc t c).valM s' = - c.valM s ∧ Only [t + 348] s s' := by
  cases c with
  | const z => exact Does.skip ⟨rfl, Only.refl _ s⟩
  | var v =>
    obtain ⟨h1, h2, h3⟩ := hc v rfl
    have e : ∀ x, runAsg [⟨t + 348, .set, .const 0xFFFFFFFF⟩, ⟨t + 348, .sub, .var v⟩, ⟨t + 348, .add, .const 1⟩] s x = if x = t + 348 then - s (v + 348) else s x := by
      intro x
      simp only [runAsg, Src.valM, arith, get_set, if_true]
      rw [if_neg (show v + 348 ≠ t + 348 by omega)]
      split
      · have := (s (v + 348)).isLt
        generalize s (v + 348) = y at *
        rw [← neg_eq, ← full_sub y]
      · rfl
    refine Does.asg (by simp [h2]) (by simp [h1]) ⟨?_, ?_⟩
    · simp only [negSrc, Src.valM]
      rw [e, if_pos rfl]
    · intro y hy
      rw [e, if_neg (by simpa using hy)]

/-- **C34, `f_dwwrite_cp(c, x)`, `f_dwadd_cp(c, x)`, `f_dwsubtract_cp(c, x)`, `f_maskwrite_cp(c, x, k)`**: exactly the dword `c` dwords after the current player changes, and the current player is as before. -/
theorem C34_cp {L : Layout} {t p1 p2 p3 : Nat} {md : Mod} {c x k : Src} {s : Mem} (hcc : L.cell cpAddr) (hc : ∀ v, c = .var v → v ∈ L.P.vars ∧ L.cell (t + 348) ∧ t ≠ v)
    (hf : FillOk L (cpFills t p1 p2 p3 c x k)) (ht : ∀ src ∈ [c, x, k], ∀ v, src = .var v → v ≠ t) (hcp : cpAddr ∉ [t + 348, p1 + 20, p2 + 20, p2, p3 + 20])
    (hA : L.cell (epdAddr (s cpAddr + c.valM s))) (hn : epdAddr (s cpAddr + c.valM s) ∉ [cpAddr, t + 348, p1 + 20, p2 + 20, p2, p3 + 20]) :
    Does L (setCp t p1 p2 p3 md c x k) s fun s' =>
      s' (epdAddr (s cpAddr + c.valM s)) = modify md (s (epdAddr (s cpAddr + c.valM s))) (x.valM s) (k.valM s) ∧ s' cpAddr = s cpAddr ∧
        Only [epdAddr (s cpAddr + c.valM s), cpAddr, t + 348, p1 + 20, p2 + 20, p2, p3 + 20] s s' := by
  have nd : ∀ y ∈ (cpFills t p1 p2 p3 c x k).map Prod.fst, y ∈ [p1 + 20, p2 + 20, p2, p3 + 20] := by simp [cpFills]
  have nd' := hf.1
  simp only [cpFills, List.map_cons, List.map_nil, List.nodup_cons, List.mem_cons, List.not_mem_nil, or_false, not_or] at nd'
  generalize hAA : epdAddr (s cpAddr + c.valM s) = A at *
  simp only [List.mem_cons, List.not_mem_nil, or_false, not_or] at hcp hn
  unfold setCp
  refine Does.seq (Does.mono (negS_does hc s) ?_)
  rintro s0 ⟨n1, n2⟩
  have val : ∀ src ∈ [c, x, k], src.valM s0 = src.valM s := by
    intro src hs
    cases src with
    | const _ => rfl
    | var v => exact n2 _ (by have := ht _ hs v rfl; simp; omega)
  refine Does.seq (Does.mono (fills_does hf s0) ?_)
  rintro s1 ⟨h1, h2⟩
  have g1 := h1 (p1 + 20, c) (by simp [cpFills])
  have g2 := h1 (p2 + 20, x) (by simp [cpFills])
  have g3 := h1 (p2, k) (by simp [cpFills])
  have g4 := h1 (p3 + 20, negSrc t c) (by simp [cpFills])
  simp only [val c (by simp), val x (by simp), val k (by simp), n1] at g1 g2 g3 g4
  have ec : s1 cpAddr = s cpAddr := by rw [h2 _ fun h => ?_, n2 _ (by simp; omega)]; have := nd _ h; simp at this; omega
  have eA : s1 A = s A := by rw [h2 _ fun h => ?_, n2 _ (by simp; omega)]; have := nd _ h; simp at this; omega
  have r1 := cpMv_run (s := s1) (p := p1) (c := c) g1
  rw [ec] at r1
  have r2 := cpAct_run (s := s1.set cpAddr (s cpAddr + c.valM s)) (p := p2) (md := md) (x := x) (k := k) (v := x.valM s) (m := k.valM s)
    (by rw [set_ne (by omega)]; exact g2) (by rw [set_ne (by omega)]; exact g3)
  rw [set_eq, hAA, set_ne hn.1, eA] at r2
  have r3 := cpMv_run (s := (s1.set cpAddr (s cpAddr + c.valM s)).set A (modify md (s A) (x.valM s) (k.valM s))) (p := p3) (c := negSrc t c) (v := - c.valM s)
    (by rw [set_ne (by omega), set_ne (by omega)]; exact g4)
  rw [set_ne (Ne.symm hn.1), set_eq] at r3
  refine Does.acts (actsOk_cpMv hcc ?_) ?_
  · rw [r1]
    refine actsOk_cpAct (by rw [set_eq, hAA]; exact hA) ?_
    rw [r2]
    exact actsOk_cpMv hcc trivial
  · rw [runPA_cons, runPA_cons, runPA_cons, runPA_nil, r1, r2, r3]
    refine ⟨by rw [set_ne hn.1, set_eq], ?_, ?_⟩
    · rw [set_eq, BitVec.add_assoc, BitVec.add_right_neg]; simp
    · refine Only.set (Only.set (Only.set ?_ (by simp) _) (by simp) _) (by simp) _
      exact (n2.mono fun y hy => by simp at hy ⊢; simp [hy]).trans (h2.mono fun y hy => by have := nd y hy; simp at this ⊢; grind)

/-! ## `VProc` and `SeqCompute` to the current player -/

/-- The dword at the current player is changed by the value of `v`. -/
def SetCpRel (L : Layout) (md : Mod) (v : Nat) (s s' : Mem) : Prop :=
  L.cell (epdAddr (s cpAddr)) ∧ s' = s.set (epdAddr (s cpAddr)) (arith md (s (epdAddr (s cpAddr))) (s (v + 348)))

/-- cpmemio.py:143-144, 156-157, 169-170 `VProc(v, v.Queue...To(CP))` and cpmemio.py:189, 234 `SeqCompute([(CP, Add, v)])`: the variable is run with player 13 as its destination. -/
theorem setCp_code {L : Layout} (hw : L.Wf) {t v n : Nat} {md : Mod} (hv : v ∈ L.P.vars) (hn : n < 2 ^ 32)
    (hb : (⟨t, ⟨[], (setdwCV 13 v n md).map QA.act⟩, some v, false⟩ : SBlk) ∈ L.P.blks) {r b k : Nat} : Code L r b k (.prim (SetCpRel L md v)) t n := by
  refine .prim ?_
  rintro s s' ⟨h2, rfl⟩
  have g1 := Layout.Steps.trig hw (cs := []) (as := setdwCV 13 v n md) (nx := some v) hb trivial (by simp [PlacedQ, setdwCV]) (q := ⟨[], KB.none, s⟩) (by simp)
    (fun _ => ⟨hv, hv, ⟨hv, hn⟩, trivial⟩) (n := v) rfl
  simp only [holdsAll_nil, if_true] at g1
  have g3 := g1.trans (Layout.Steps.var hw hv (n := n) (md := md) (d := .cp 0) (w := 13) (by simp [setdwCV, runQA, QA.run, KB.up]) hn
    (by simp [setdwCV, runQA, QA.run, KB.up]) dstOf_thirteen (by rw [cpAt0]; exact h2) (by simp [setdwCV, runQA, QA.run, KB.up]))
  simp only [cpAt0] at g3
  exact Layout.Steps.runs hw g3 (by simp [setdwCV, runQA, QA.run])

/-- **C34, `f_dwwrite_cp(0, v)`, `f_dwadd_cp(0, v)`, `f_dwsubtract_cp(0, v)`** for a variable. -/
theorem C34_cp_var {L : Layout} {md : Mod} {v : Nat} {s : Mem} (hc : L.cell (epdAddr (s cpAddr))) :
    Does L (.prim (SetCpRel L md v)) s fun s' => s' (epdAddr (s cpAddr)) = arith md (s (epdAddr (s cpAddr))) (s (v + 348)) ∧ Only [epdAddr (s cpAddr)] s s' :=
  Does.prim ⟨hc, rfl⟩ ⟨set_eq .., (Only.refl _ s).set (by simp) _⟩

/-! ## Bytes and words at a constant offset -/

/-- **C34, `f_bwrite_cp(c, i, b)` and `f_wwrite_cp(c, i, b)` with a variable value**; `sh` is the multiplication by `256 ** i`, into `tt`. -/
theorem C34_cp_bytes {L : Layout} {I : Mem → Prop} {t p1 p2 p3 nb i wv tt : Nat} {sh : Stmt} {c : Src} {scr : List Nat} {s : Mem} (hi : i + nb ≤ 4) (hsh : ShlTo L I sh wv (8 * i) tt scr) (hI : I s)
    (hcc : L.cell cpAddr) (hc : ∀ v, c = .var v → v ∈ L.P.vars ∧ L.cell (t + 348) ∧ t ≠ v ∧ v + 348 ∉ (tt + 348) :: scr)
    (hf : FillOk L (cpFills t p1 p2 p3 c (.var tt) (.const (byteMask nb i)))) (htt : tt ≠ t) (hcp : cpAddr ∉ [t + 348, p1 + 20, p2 + 20, p2, p3 + 20] ++ (tt + 348) :: scr)
    (hA : L.cell (epdAddr (s cpAddr + c.valM s))) (hn : epdAddr (s cpAddr + c.valM s) ∉ [cpAddr, t + 348, p1 + 20, p2 + 20, p2, p3 + 20] ++ (tt + 348) :: scr) :
    Does L (.seq sh (setCp t p1 p2 p3 .set c (.var tt) (.const (byteMask nb i)))) s fun s' =>
      FieldOp .set nb i (s (wv + 348)) (s (epdAddr (s cpAddr + c.valM s))) (s' (epdAddr (s cpAddr + c.valM s))) ∧ s' cpAddr = s cpAddr ∧
        Only ([epdAddr (s cpAddr + c.valM s), cpAddr, t + 348, p1 + 20, p2 + 20, p2, p3 + 20] ++ (tt + 348) :: scr) s s' := by
  rw [List.mem_append, not_or] at hcp hn
  refine Does.seq (Does.mono (hsh s hI) ?_)
  rintro s1 ⟨h1, -, h3⟩
  have ec : s1 cpAddr = s cpAddr := h3 _ hcp.2
  have ev : c.valM s1 = c.valM s := by
    cases c with
    | const _ => rfl
    | var v => exact h3 _ (hc v rfl).2.2.2
  have eA := h3 _ hn.2
  refine Does.mono (C34_cp (md := .set) (s := s1) (x := .var tt) (k := .const (byteMask nb i)) hcc (fun v hv => ⟨(hc v hv).1, (hc v hv).2.1, (hc v hv).2.2.1⟩) hf ?_ hcp.1 (by rw [ec, ev]; exact hA) (by rw [ec, ev]; exact hn.1)) ?_
  · intro src hs v hv
    simp only [List.mem_cons, List.not_mem_nil, or_false] at hs
    rcases hs with rfl | rfl | rfl
    · exact Ne.symm (hc v hv).2.2.1
    · cases hv; exact htt
    · cases hv
  · rw [ec, ev, eA]
    rintro s2 ⟨g1, g2, g3⟩
    refine ⟨?_, g2, (h3.mono fun y hy => List.mem_append_right _ hy).trans (g3.mono fun y hy => List.mem_append_left _ hy)⟩
    rw [g1]
    simp only [Src.valM]
    rw [h1]
    exact field_op .set _ _ hi

/-- The same with a constant value. -/
theorem C34_cp_bytes_const {L : Layout} {t p1 p2 p3 nb i : Nat} {c : Src} {s : Mem} (x : W) (hi : i + nb ≤ 4) (hcc : L.cell cpAddr) (hc : ∀ v, c = .var v → v ∈ L.P.vars ∧ L.cell (t + 348) ∧ t ≠ v)
    (hf : FillOk L (cpFills t p1 p2 p3 c (.const (x <<< (8 * i))) (.const (byteMask nb i)))) (hcp : cpAddr ∉ [t + 348, p1 + 20, p2 + 20, p2, p3 + 20])
    (hA : L.cell (epdAddr (s cpAddr + c.valM s))) (hn : epdAddr (s cpAddr + c.valM s) ∉ [cpAddr, t + 348, p1 + 20, p2 + 20, p2, p3 + 20]) :
    Does L (setCp t p1 p2 p3 .set c (.const (x <<< (8 * i))) (.const (byteMask nb i))) s fun s' =>
      FieldOp .set nb i x (s (epdAddr (s cpAddr + c.valM s))) (s' (epdAddr (s cpAddr + c.valM s))) ∧ s' cpAddr = s cpAddr ∧
        Only [epdAddr (s cpAddr + c.valM s), cpAddr, t + 348, p1 + 20, p2 + 20, p2, p3 + 20] s s' := by
  refine Does.mono (C34_cp (md := .set) (x := .const (x <<< (8 * i))) (k := .const (byteMask nb i)) hcc hc hf ?_ hcp hA hn) ?_
  · intro src hs v hv
    simp only [List.mem_cons, List.not_mem_nil, or_false] at hs
    rcases hs with rfl | rfl | rfl
    · exact Ne.symm (hc v hv).2.2
    · cases hv
    · cases hv
  · rintro s' ⟨g1, g2, g3⟩
    exact ⟨by rw [g1]; exact field_op .set _ x hi, g2, g3⟩

/-- **C34, counterexample**: `f_wwrite_cp(c, 3, x)` with the number 3 does not write the second byte of the word, whatever it is: the mask `65535 << 24` is cut off to one byte (cpmemio.py:203-218). -/
theorem C34_counterexample_word3 {L : Layout} {t p1 p2 p3 : Nat} {c : Src} {s : Mem} (x : W) (hcc : L.cell cpAddr) (hc : ∀ v, c = .var v → v ∈ L.P.vars ∧ L.cell (t + 348) ∧ t ≠ v)
    (hf : FillOk L (cpFills t p1 p2 p3 c (.const (x <<< 24)) (.const (byteMask 2 3)))) (hcp : cpAddr ∉ [t + 348, p1 + 20, p2 + 20, p2, p3 + 20])
    (hA : L.cell (epdAddr (s cpAddr + c.valM s))) (hn : epdAddr (s cpAddr + c.valM s) ∉ [cpAddr, t + 348, p1 + 20, p2 + 20, p2, p3 + 20])
    (hn2 : epdAddr (s cpAddr + c.valM s + 1) ∉ [cpAddr, t + 348, p1 + 20, p2 + 20, p2, p3 + 20]) :
    Does L (setCp t p1 p2 p3 .set c (.const (x <<< 24)) (.const (byteMask 2 3))) s fun s' =>
      FieldOp .set 1 3 x (s (epdAddr (s cpAddr + c.valM s))) (s' (epdAddr (s cpAddr + c.valM s))) ∧ s' (epdAddr (s cpAddr + c.valM s + 1)) = s (epdAddr (s cpAddr + c.valM s + 1)) := by
  have hm : byteMask 2 3 = byteMask 1 3 := by decide +kernel
  rw [hm] at hf ⊢
  refine Does.mono (C34_cp_bytes_const (nb := 1) (i := 3) x (by decide) hcc hc hf hcp hA hn) ?_
  rintro s' ⟨g1, -, g3⟩
  refine ⟨g1, g3 _ ?_⟩
  rw [List.mem_cons, not_or]
  refine ⟨epdAddr_next_ne _, ?_⟩
  exact hn2

/-! ## Bytes and words at a variable offset -/

/-- cpmemio.py:184-190, 230-235: the case `i`.  The field is cleared, and the shifted value, which `sh` puts into `t`, is added to the whole dword. -/
def cwCase (L : Layout) (nb : Nat) (sh : Stmt) (t i : Nat) : Stmt :=
  .seq (.trig [] [aCp .set 0 (byteMask nb i)]) (.seq sh (.seq (.prim (SetCpRel L .add t)) .brk))

/-- What is left of `w` and `x` by `cwCase`. -/
def cwVal (nb i : Nat) (x w : W) : W := modify .set w 0 (byteMask nb i) + x <<< (8 * i)

/-- A value that fits into the field is written as it should be. -/
theorem cwVal_fits {nb i : Nat} (h : i + nb ≤ 4) {x : W} (hx : x.toNat < 256 ^ nb) (w : W) : FieldOp .set nb i x w (cwVal nb i x w) := by
  have e : cwVal nb i x w = modify .set w (x <<< (8 * i)) (byteMask nb i) := by
    have hb : ∀ j < 32, (x <<< (8 * i)).getLsbD j = true → (byteMask nb i).getLsbD j = true := by
      intro j hj h1
      rw [byteMask_bit _ _ _ hj]
      simp only [BitVec.getLsbD_shiftLeft, Bool.and_eq_true, decide_eq_true_iff, Bool.not_eq_true', decide_eq_false_iff_not] at h1 ⊢
      refine ⟨by omega, ?_⟩
      refine Classical.byContradiction fun hh => ?_
      have : x.getLsbD (j - 8 * i) = false := by
        refine Nat.testBit_lt_two_pow ?_
        exact Nat.lt_of_lt_of_le hx (by rw [show (256 : Nat) = 2 ^ 8 from rfl, ← Nat.pow_mul]; exact Nat.pow_le_pow_right (by omega) (by omega))
      rw [this] at h1
      simp at h1
    unfold cwVal
    rw [BitVec.add_eq_or_of_and_eq_zero]
    · apply BitVec.eq_of_getLsbD_eq
      intro j hj
      have := hb j hj
      simp only [modify, arith, BitVec.getLsbD_or, BitVec.getLsbD_and, BitVec.getLsbD_not, hj, decide_true, Bool.true_and]
      cases h1 : (x <<< (8 * i)).getLsbD j <;> cases h2 : (byteMask nb i).getLsbD j <;> simp_all
    · apply BitVec.eq_of_getLsbD_eq
      intro j hj
      have := hb j hj
      simp only [modify, arith, BitVec.getLsbD_or, BitVec.getLsbD_and, BitVec.getLsbD_not, hj, decide_true, Bool.true_and]
      simp only [BitVec.getLsbD_zero, Bool.false_and, Bool.or_false]
      cases h1 : (x <<< (8 * i)).getLsbD j <;> cases h2 : (byteMask nb i).getLsbD j <;> simp_all
  rw [e]
  exact field_op .set w x h

/-- A value that does not fit changes the next byte: 256 written to byte 0. -/
theorem cwVal_spills (w : W) (h : w.extractLsb' 8 8 ≠ 255) : (cwVal 1 0 256 w).extractLsb' 8 8 = w.extractLsb' 8 8 + 1 ∧ ¬ FieldOp .set 1 0 256 w (cwVal 1 0 256 w) := by
  have hw := w.isLt
  have e1 : (modify .set w 0 (byteMask 1 0)).toNat = w.toNat / 256 * 256 := by
    rw [show modify .set w 0 (byteMask 1 0) = w >>> 8 <<< 8 from ?_]
    · simp only [BitVec.toNat_shiftLeft, BitVec.toNat_ushiftRight, Nat.shiftRight_eq_div_pow, Nat.shiftLeft_eq]
      omega
    · apply BitVec.eq_of_getLsbD_eq
      intro j hj
      simp only [modify, arith, BitVec.getLsbD_or, BitVec.getLsbD_and, BitVec.getLsbD_not, hj, decide_true, Bool.true_and, BitVec.getLsbD_zero, Bool.false_and, Bool.or_false, byteMask_bit _ _ _ hj,
        BitVec.getLsbD_shiftLeft, BitVec.getLsbD_ushiftRight]
      by_cases h8 : j < 8
      · simp [h8]
      · simp [h8, show 8 + (j - 8) = j by omega]
  have e2 : (cwVal 1 0 256 w).toNat = (w.toNat / 256 * 256 + 256) % 2 ^ 32 := by
    unfold cwVal
    rw [BitVec.toNat_add, e1]
    rfl
  have e3 : (w.extractLsb' 8 8).toNat = w.toNat / 256 % 256 := by rw [BitVec.extractLsb'_toNat, Nat.shiftRight_eq_div_pow]
  have e4 : w.toNat / 256 % 256 ≠ 255 := fun hh => h (by apply BitVec.eq_of_toNat_eq; rw [e3, hh]; rfl)
  have k1 : (cwVal 1 0 256 w).extractLsb' 8 8 = w.extractLsb' 8 8 + 1 := by
    apply BitVec.eq_of_toNat_eq
    rw [BitVec.toNat_add, e3, BitVec.extractLsb'_toNat, Nat.shiftRight_eq_div_pow, e2]
    show (w.toNat / 256 * 256 + 256) % 2 ^ 32 / 256 % 256 = (w.toNat / 256 % 256 + 1) % 256
    omega
  refine ⟨k1, fun hF => ?_⟩
  have : (cwVal 1 0 256 w).extractLsb' 8 8 = w.extractLsb' 8 8 := by
    apply BitVec.eq_of_getLsbD_eq
    intro j hj
    simp only [BitVec.getLsbD_extractLsb', hj, decide_true, Bool.true_and]
    exact hF.2 _ (Or.inr (by omega))
  rw [k1] at this
  have h5 := congrArg BitVec.toNat this
  rw [BitVec.toNat_add, e3] at h5
  have : (1 : BitVec 8).toNat = 1 := rfl
  omega

theorem cwCase_does {L : Layout} {I : Mem → Prop} {nb i wv t k : Nat} {sh : Stmt} {scr : List Nat} (hs : ShlTo L I sh wv k t scr) {s : Mem} (hi : I s) {A : Nat} (hA : A = epdAddr (s cpAddr)) (hcA : L.cell A)
    (hnA : A ∉ cpAddr :: (wv + 348) :: (t + 348) :: scr) (hcp : cpAddr ∉ (t + 348) :: scr) (hI : ∀ s s', Only [A] s s' → I s → I s') :
    Wp L (cwCase L nb sh t i) s fun o s' => o = .brk ∧ s' A = modify .set (s A) 0 (byteMask nb i) + s (wv + 348) <<< k ∧ I s' ∧ Only (A :: (t + 348) :: scr) s s' := by
  rw [List.mem_cons, List.mem_cons, not_or, not_or] at hnA
  unfold cwCase
  refine Wp.seqN (Does.acts (actsOk_cp (by rw [← hA]; exact hcA) trivial) ?_)
  rw [runPA_cons, runPA_nil, aCp_run, ← hA]
  have i1 := hI s _ ((Only.refl _ s).set (show A ∈ [A] by simp) (modify .set (s A) 0 (byteMask nb i))) hi
  refine Wp.seqN (Does.mono (hs _ i1) ?_)
  rintro s2 ⟨h1, h2, h3⟩
  have ec : s2 cpAddr = s cpAddr := by rw [h3 _ hcp, set_ne (Ne.symm hnA.1)]
  have eA : s2 A = modify .set (s A) 0 (byteMask nb i) := by rw [h3 _ hnA.2.2, set_eq]
  rw [set_ne (Ne.symm hnA.2.1)] at h1
  refine Wp.seqN (Does.mono (C34_cp_var (md := .add) (v := t) (s := s2) (by rw [ec, ← hA]; exact hcA)) ?_)
  rw [ec, ← hA, eA, h1]
  rintro s3 ⟨g1, g2⟩
  refine Wp.brk ⟨rfl, g1, hI _ _ g2 h2, ?_⟩
  exact (((Only.refl _ s).set (by simp) _).trans (h3.mono fun y hy => List.mem_cons_of_mem _ hy)).trans (g2.mono fun y hy => by rw [List.mem_singleton.1 hy]; simp)

/-- cpmemio.py:181-199, 227-237: the body of `_wwriter`, `_bwriter` with the parameters `sv` and the value. -/
def cwBody (L : Layout) (sv : Nat) (cases : List (W × Stmt)) (tail : Stmt) : Stmt := .seq (.prim (SwRel L (fun s => s (sv + 348)) cases)) tail

/-- cpmemio.py:219-224, 257-262: the current player is moved by `a`, the writer is called, the current player is moved back by `b`.  Case `j` establishes `R j`, which speaks about the dwords `As` only. -/
theorem cpwriter_call {L : Layout} (hw : L.Wf) {fend nptr fstart back sv wv k : Nat} {f : Nat → Stmt} {tail a b : Stmt} {rs : List (Nat × Nat)} {i x : Src} {I : Mem → Prop} {d d' : Mem → W}
    {As mscr scr tscr : List Nat} {R : Nat → Mem → Prop} (hk : k ≤ 2 ^ 32) (ha : AddsCp L a d mscr) (hb : AddsCp L b d' mscr) {s : Mem}
    (hd : ∀ s', Only (cpAddr :: mscr ++ callOnly nptr rs [(sv + 348, i), (wv + 348, x)] (As ++ scr ++ tscr)) s s' → d' s' = - d s)
    (hcase : ∀ j < k, j = (i.valM s).toNat → ∀ s2, I s2 → s2 cpAddr = s cpAddr + d s → (∀ A ∈ As, s2 A = s A) → s2 (wv + 348) = x.valM s →
      Wp L (f j) s2 fun o s' => o = .brk ∧ R j s' ∧ I s' ∧ s' cpAddr = s2 cpAddr ∧ Only (cpAddr :: As ++ scr) s2 s')
    (hR : ∀ j b b', (∀ A ∈ As, b' A = b A) → R j b → R j b')
    (htl : ∀ s3, Wp L tail s3 fun o s' => (o = .nrm ∨ o = .ret) ∧ Only tscr s3 s')
    (hO : CallOk L nptr rs [(sv + 348, i), (wv + 348, x)] (cpAddr :: As ++ scr ++ tscr))
    (hF : FuncCode L fstart fend nptr (rs.map Prod.fst) (cwBody L sv (cases0 k f) tail)) (hback : back < 2 ^ 32) (hi : I s)
    (hI : ∀ s s', Only (cpAddr :: mscr ++ callOnly nptr rs [(sv + 348, i), (wv + 348, x)] tscr) s s' → I s → I s')
    (hnA : ∀ A ∈ As, A ∉ cpAddr :: mscr ++ callOnly nptr rs [(sv + 348, i), (wv + 348, x)] (scr ++ tscr))
    (hcp : cpAddr ∉ callOnly nptr rs [(sv + 348, i), (wv + 348, x)] (scr ++ tscr))
    (hsrc : ∀ src ∈ [i, x], ∀ v, src = .var v → v + 348 ∉ cpAddr :: mscr) :
    Does L (.seq a (.seq (.prim (CallRel L fend nptr back (cwBody L sv (cases0 k f) tail) rs [(sv + 348, i), (wv + 348, x)])) b)) s fun s' =>
      (if (i.valM s).toNat < k then R (i.valM s).toNat s' else ∀ A ∈ As, s' A = s A) ∧ s' cpAddr = s cpAddr ∧ I s' ∧
        Only (cpAddr :: mscr ++ callOnly nptr rs [(sv + 348, i), (wv + 348, x)] (As ++ scr ++ tscr)) s s' := by
  have hR' : ∀ (b b' : Mem), (∀ A ∈ As, b' A = b A) → (if (i.valM s).toNat < k then R (i.valM s).toNat b else ∀ A ∈ As, b A = s A) →
      (if (i.valM s).toNat < k then R (i.valM s).toNat b' else ∀ A ∈ As, b' A = s A) := by
    intro b b' h
    split
    · exact hR _ _ _ h
    · exact fun g A hA => (h A hA).trans (g A hA)
  refine Does.seq (Does.mono (ha s) ?_)
  rintro s1 ⟨m1, m2⟩
  have val : ∀ src ∈ [i, x], src.valM s1 = src.valM s := by
    intro src hs
    cases src with
    | const _ => rfl
    | var v => exact m2 _ (hsrc _ hs v rfl)
  have vi := val i (by simp)
  have vx := val x (by simp)
  have I1 : I s1 := hI _ _ (m2.mono fun y hy => List.mem_append_left _ hy) hi
  have A1 : ∀ A ∈ As, s1 A = s A := fun A hA => m2 _ fun h => hnA A hA (List.mem_append_left _ h)
  refine Does.seq (Does.mono (C31_does hw hO hF hback (s := s1) (Q := fun s2 => (if (i.valM s).toNat < k then R (i.valM s).toNat s2 else ∀ A ∈ As, s2 A = s A) ∧ s2 cpAddr = s1 cpAddr ∧ I s2) ?_) ?_)
  · intro s2 a2 o2
    have b2 : s2 (sv + 348) = i.valM s := (a2 (sv + 348, i) (by simp)).trans vi
    have b3 : s2 (wv + 348) = x.valM s := (a2 (wv + 348, x) (by simp)).trans vx
    have I2 : I s2 := hI _ _ (o2.mono fun y hy => by simp only [callOnly, List.map_cons, List.map_nil, List.mem_cons, List.mem_append] at hy ⊢; grind) I1
    have A2 : ∀ A ∈ As, s2 A = s A := fun A hA => by
      rw [o2 _ fun hy => hnA A hA ?_, A1 A hA]
      simp only [callOnly, List.map_cons, List.map_nil, List.mem_cons, List.mem_append] at hy ⊢; grind
    have c2 : s2 cpAddr = s1 cpAddr := o2 _ fun hy => hcp (by simp only [callOnly, List.map_cons, List.map_nil, List.mem_cons, List.mem_append] at hy ⊢; grind)
    unfold cwBody
    refine Wp.seqN (Does.mono (Does.sw (Q := fun s3 => ((if (i.valM s).toNat < k then R (i.valM s).toNat s3 else ∀ A ∈ As, s3 A = s A) ∧ s3 cpAddr = s1 cpAddr ∧ I s3) ∧ Only (cpAddr :: As ++ scr) s2 s3) ?_ ?_) ?_)
    · intro hl
      simp only [b2] at hl
      rw [cases0_lookup hk] at hl
      split at hl
      · cases hl
      · rename_i hh
        exact ⟨⟨by rw [if_neg hh]; exact A2, c2, I2⟩, Only.refl _ s2⟩
    · intro st hl
      simp only [b2] at hl
      rw [cases0_lookup hk] at hl
      split at hl
      · rename_i hh
        cases hl
        refine Wp.mono (hcase _ hh rfl s2 I2 (c2.trans m1) A2 b3) ?_
        rintro o s3 ⟨rfl, f1, f2, f3, f4⟩
        exact ⟨rfl, ⟨by rw [if_pos hh]; exact f1, f3.trans c2, f2⟩, f4⟩
      · cases hl
    · rintro s3 ⟨⟨q1, q2, q3⟩, o3⟩
      refine Wp.mono (htl s3) ?_
      rintro o s4 ⟨t1, t2⟩
      refine ⟨t1, ⟨?_, ?_, ?_⟩, ?_⟩
      · exact hR' _ _ (fun A hA => t2 _ fun hy => hnA A hA (by simp only [callOnly, List.mem_cons, List.mem_append]; grind)) q1
      · rw [t2 _ fun hy => hcp (by simp only [callOnly, List.mem_cons, List.mem_append]; grind), q2]
      · exact hI _ _ (t2.mono fun y hy => by simp only [callOnly, List.mem_cons, List.mem_append]; grind) q3
      · exact (o3.mono fun y hy => List.mem_append_left _ hy).trans (t2.mono fun y hy => List.mem_append_right _ hy)
  · rintro s2 ⟨⟨s3, ⟨q1, q2, q3⟩, -, o2⟩, o3⟩
    have r1 := hR' _ s2 (fun A hA => o2 _ fun hy => hnA A hA (by simp only [callOnly, List.mem_cons, List.mem_append] at hy ⊢; grind)) q1
    have r2 : s2 cpAddr = s1 cpAddr := by rw [o2 _ fun hy => hcp (by simp only [callOnly, List.mem_cons, List.mem_append] at hy ⊢; grind), q2]
    have r3 : I s2 := hI _ _ (o2.mono fun y hy => by simp only [callOnly, List.mem_cons, List.mem_append] at hy ⊢; grind) q3
    have o4 : Only (cpAddr :: mscr ++ callOnly nptr rs [(sv + 348, i), (wv + 348, x)] (As ++ scr ++ tscr)) s s2 :=
      (m2.mono fun y hy => List.mem_append_left _ hy).trans (o3.mono fun y hy => by simp only [callOnly, List.mem_cons, List.mem_append] at hy ⊢; grind)
    refine Does.mono (hb s2) ?_
    rintro s4 ⟨z1, z2⟩
    refine ⟨?_, ?_, ?_, o4.trans (z2.mono fun y hy => List.mem_append_left _ hy)⟩
    · exact hR' _ _ (fun A hA => z2 _ fun hy => hnA A hA (List.mem_append_left _ hy)) r1
    · rw [z1, r2, m1, hd s2 o4, BitVec.add_assoc, BitVec.add_right_neg]; simp
    · exact hI _ _ (z2.mono fun y hy => List.mem_append_left _ hy) r3

/-- What a call of a writer at the current player needs besides its cases: `As` are the dwords written, `mscr` those used to move the current player, `scr` those used by the cases, `tscr` the result. -/
structure CwHyp (L : Layout) (nptr sv wv : Nat) (rs : List (Nat × Nat)) (i x : Src) (d d' : Mem → W) (As mscr scr tscr : List Nat) (s : Mem) : Prop where
  ok : CallOk L nptr rs [(sv + 348, i), (wv + 348, x)] (cpAddr :: As ++ scr ++ tscr)
  hd : ∀ s', Only (cpAddr :: mscr ++ callOnly nptr rs [(sv + 348, i), (wv + 348, x)] (As ++ scr ++ tscr)) s s' → d' s' = - d s
  nA : ∀ A ∈ As, L.cell A ∧ A ∉ cpAddr :: mscr ++ callOnly nptr rs [(sv + 348, i), (wv + 348, x)] (scr ++ tscr)
  cp : cpAddr ∉ callOnly nptr rs [(sv + 348, i), (wv + 348, x)] (scr ++ tscr)
  src : ∀ src ∈ [i, x], ∀ v, src = .var v → v + 348 ∉ cpAddr :: mscr

/-- **C34, bytes at a variable offset from the current player**: `f_bwrite_cp(c, i, x)` (`nb = 1`, `k = 4`).  A value that fits is written to byte `i` of the dword `c` dwords after the current player, and nothing else
changes; for all values the dword becomes what it was, with the byte cleared, plus `x << 8 * i`.  If the offset has no case, nothing is written.  The current player is as before. -/
theorem C34_cp_bvar {L : Layout} (hw : L.Wf) {fend nptr fstart back sv wv nb k : Nat} {sh : Nat → Stmt} {t : Nat → Nat} {tail a b : Stmt} {rs : List (Nat × Nat)} {i x : Src} {I : Mem → Prop} {d d' : Mem → W}
    {mscr scr tscr : List Nat} (hk : k + nb ≤ 5) (ha : AddsCp L a d mscr) (hb : AddsCp L b d' mscr) (hsh : ∀ j < k, ShlTo L I (sh j) wv (8 * j) (t j) scr ∧ t j + 348 ∈ scr)
    (htl : ∀ s3, Wp L tail s3 fun o s' => (o = .nrm ∨ o = .ret) ∧ Only tscr s3 s') {s : Mem} (hh : CwHyp L nptr sv wv rs i x d d' [epdAddr (s cpAddr + d s)] mscr scr tscr s)
    (hF : FuncCode L fstart fend nptr (rs.map Prod.fst) (cwBody L sv (cases0 k fun j => cwCase L nb (sh j) (t j) j) tail)) (hback : back < 2 ^ 32) (hi : I s)
    (hI : ∀ s1 s', Only (cpAddr :: mscr ++ callOnly nptr rs [(sv + 348, i), (wv + 348, x)] (epdAddr (s cpAddr + d s) :: tscr)) s1 s' → I s1 → I s') :
    Does L (.seq a (.seq (.prim (CallRel L fend nptr back (cwBody L sv (cases0 k fun j => cwCase L nb (sh j) (t j) j) tail) rs [(sv + 348, i), (wv + 348, x)])) b)) s fun s' =>
      (if (i.valM s).toNat < k then s' (epdAddr (s cpAddr + d s)) = cwVal nb (i.valM s).toNat (x.valM s) (s (epdAddr (s cpAddr + d s))) ∧
          ((x.valM s).toNat < 256 ^ nb → FieldOp .set nb (i.valM s).toNat (x.valM s) (s (epdAddr (s cpAddr + d s))) (s' (epdAddr (s cpAddr + d s))))
        else s' (epdAddr (s cpAddr + d s)) = s (epdAddr (s cpAddr + d s))) ∧ s' cpAddr = s cpAddr ∧ I s' ∧
        Only (cpAddr :: mscr ++ callOnly nptr rs [(sv + 348, i), (wv + 348, x)] (epdAddr (s cpAddr + d s) :: scr ++ tscr)) s s' := by
  generalize hA : epdAddr (s cpAddr + d s) = A at *
  obtain ⟨hcA, hnA⟩ := hh.nA A (by simp)
  have sv1 : A ∉ cpAddr :: (wv + 348) :: scr := fun h => hnA (by
    simp only [callOnly, List.map_cons, List.map_nil, List.mem_cons, List.mem_append] at h ⊢; grind)
  have scp : cpAddr ∉ scr := fun h => hh.cp (by simp only [callOnly, List.mem_cons, List.mem_append]; grind)
  refine Does.mono (cpwriter_call hw (I := I) (As := [A]) (scr := scr) (tscr := tscr) (R := fun j s' => s' A = cwVal nb j (x.valM s) (s A)) (by omega) ha hb hh.hd ?_ ?_ htl hh.ok hF hback hi
    (fun a b hab => hI a b (hab.mono fun y hy => ?_)) (fun A hA => (hh.nA A hA).2) hh.cp hh.src) ?_
  · intro j hj _ s2 hI2 c1 eA d3
    obtain ⟨g1, g2⟩ := hsh _ hj
    have sub : ∀ y ∈ (t j + 348) :: scr, y ∈ scr := by
      intro y hy
      rcases List.mem_cons.1 hy with rfl | hy
      · exact g2
      · exact hy
    refine Wp.mono (cwCase_does (nb := nb) (i := j) g1 hI2 (A := A) (by rw [c1, hA]) hcA (fun h => sv1 ?_) (fun h => scp (sub _ h)) (fun a b hab => hI a b (hab.mono fun y hy => ?_))) ?_
    · simp only [List.mem_cons] at h ⊢; grind
    · simp only [callOnly, List.mem_cons, List.mem_append, List.not_mem_nil, or_false] at hy ⊢; grind
    · rintro o s3 ⟨rfl, f1, f2, f3⟩
      refine ⟨rfl, ?_, f2, ?_, f3.mono fun y hy => ?_⟩
      · rw [f1, eA A (by simp), d3]; rfl
      · refine f3 _ fun h => ?_
        rcases List.mem_cons.1 h with h | h
        · exact sv1 (by rw [h]; simp)
        · exact scp (sub _ h)
      · rcases List.mem_cons.1 hy with rfl | hy
        · simp
        · have := sub y hy
          simp [this]
  · intro j b b' h; simp only [h A (by simp)]; exact id
  · simp only [callOnly, List.mem_cons, List.mem_append, List.cons_append] at hy ⊢; grind
  · rintro s' ⟨h1, h2, h3, h4⟩
    refine ⟨?_, h2, h3, h4.mono fun y hy => by simpa using hy⟩
    split at h1
    · rename_i hj
      rw [if_pos hj]
      exact ⟨h1, fun hx => by rw [h1]; exact cwVal_fits (by omega) hx _⟩
    · rename_i hj
      rw [if_neg hj]
      exact h1 A (by simp)

/-- **C34, counterexample**: with the value 256 `f_bwrite_cp(c, i, 256)` for a variable offset 0 adds one to the next byte. -/
theorem C34_counterexample_cp_spill {L : Layout} (hw : L.Wf) {fend nptr fstart back sv wv : Nat} {sh : Nat → Stmt} {t : Nat → Nat} {tail a b : Stmt} {rs : List (Nat × Nat)} {i x : Src} {I : Mem → Prop} {d d' : Mem → W}
    {mscr scr tscr : List Nat} (ha : AddsCp L a d mscr) (hb : AddsCp L b d' mscr) (hsh : ∀ j < 4, ShlTo L I (sh j) wv (8 * j) (t j) scr ∧ t j + 348 ∈ scr)
    (htl : ∀ s3, Wp L tail s3 fun o s' => (o = .nrm ∨ o = .ret) ∧ Only tscr s3 s') {s : Mem} (hh : CwHyp L nptr sv wv rs i x d d' [epdAddr (s cpAddr + d s)] mscr scr tscr s)
    (hF : FuncCode L fstart fend nptr (rs.map Prod.fst) (cwBody L sv (cases0 4 fun j => cwCase L 1 (sh j) (t j) j) tail)) (hback : back < 2 ^ 32) (hi : I s)
    (hI : ∀ s1 s', Only (cpAddr :: mscr ++ callOnly nptr rs [(sv + 348, i), (wv + 348, x)] (epdAddr (s cpAddr + d s) :: tscr)) s1 s' → I s1 → I s')
    (h0 : i.valM s = 0) (hx : x.valM s = 256) (h255 : (s (epdAddr (s cpAddr + d s))).extractLsb' 8 8 ≠ 255) :
    Does L (.seq a (.seq (.prim (CallRel L fend nptr back (cwBody L sv (cases0 4 fun j => cwCase L 1 (sh j) (t j) j) tail) rs [(sv + 348, i), (wv + 348, x)])) b)) s fun s' =>
      (s' (epdAddr (s cpAddr + d s))).extractLsb' 8 8 = (s (epdAddr (s cpAddr + d s))).extractLsb' 8 8 + 1 := by
  refine Does.mono (C34_cp_bvar hw (by decide) ha hb hsh htl hh hF hback hi hI) ?_
  rintro s' ⟨h1, -⟩
  rw [h0, hx, if_pos (by decide)] at h1
  rw [h1.1]
  exact (cwVal_spills _ h255).1

/-- cpmemio.py:181-199: the cases of `_wwriter`. -/
def cwwCases (L : Layout) (sh : Nat → Stmt) (t : Nat → Nat) (c3 : Stmt) (j : Nat) : Stmt := if j < 3 then cwCase L 2 (sh j) (t j) j else c3

/-- **C34, words at a variable offset from the current player**: `f_wwrite_cp(c, i, x)`.  For `i < 3` as `C34_cp_bvar`; for `i = 3` the highest byte of the dword and the lowest byte of the next one are set, for all values. -/
theorem C34_cp_wvar {L : Layout} (hw : L.Wf) {fend nptr fstart back sv wv : Nat} {sh : Nat → Stmt} {t : Nat → Nat} {br m0 m1 : Stmt} {b0 b1 t0 t1 p0 p1 : Nat} {a b : Stmt} {i x : Src} {I : Mem → Prop} {d d' : Mem → W}
    {mscr scr : List Nat} (hcc : L.cell cpAddr) (ha : AddsCp L a d mscr) (hb : AddsCp L b d' mscr) (hsh : ∀ j < 3, ShlTo L I (sh j) wv (8 * j) (t j) scr ∧ t j + 348 ∈ scr)
    (h3 : Ww3 L I br m0 m1 wv b0 b1 t0 t1 p0 p1 scr) {s : Mem} {As : List Nat}
    (hAs : As = if (i.valM s).toNat = 3 then [epdAddr (s cpAddr + d s), epdAddr (s cpAddr + d s + 1)] else [epdAddr (s cpAddr + d s)])
    (hh : CwHyp L nptr sv wv [] i x d d' As mscr scr [] s)
    (hF : FuncCode L fstart fend nptr [] (cwBody L sv (cases0 4 (cwwCases L sh t (wwCase3 br m0 m1 t0 t1 p0 p1))) .skip)) (hback : back < 2 ^ 32) (hi : I s)
    (hI : ∀ s1 s', Only (cpAddr :: mscr ++ callOnly nptr [] [(sv + 348, i), (wv + 348, x)] (As ++ [p0 + 20, p1 + 20])) s1 s' → I s1 → I s') :
    Does L (.seq a (.seq (.prim (CallRel L fend nptr back (cwBody L sv (cases0 4 (cwwCases L sh t (wwCase3 br m0 m1 t0 t1 p0 p1))) .skip) [] [(sv + 348, i), (wv + 348, x)])) b)) s fun s' =>
      (if (i.valM s).toNat < 3 then s' (epdAddr (s cpAddr + d s)) = cwVal 2 (i.valM s).toNat (x.valM s) (s (epdAddr (s cpAddr + d s))) ∧
          ((x.valM s).toNat < 65536 → FieldOp .set 2 (i.valM s).toNat (x.valM s) (s (epdAddr (s cpAddr + d s))) (s' (epdAddr (s cpAddr + d s))))
        else if (i.valM s).toNat = 3 then FieldOp .set 1 3 (x.valM s) (s (epdAddr (s cpAddr + d s))) (s' (epdAddr (s cpAddr + d s))) ∧
          FieldOp .set 1 0 (x.valM s >>> 8) (s (epdAddr (s cpAddr + d s + 1))) (s' (epdAddr (s cpAddr + d s + 1)))
        else s' (epdAddr (s cpAddr + d s)) = s (epdAddr (s cpAddr + d s))) ∧ s' cpAddr = s cpAddr ∧ I s' ∧
        Only (cpAddr :: mscr ++ callOnly nptr [] [(sv + 348, i), (wv + 348, x)] (As ++ scr)) s s' := by
  have hm3 : (i.valM s).toNat = 3 → epdAddr (s cpAddr + d s + 1) ∈ As := fun h => by rw [hAs, if_pos h]; simp
  have hm1 : epdAddr (s cpAddr + d s) ∈ As := by rw [hAs]; split <;> simp
  have hx3 : (i.valM s).toNat = 3 → As = [epdAddr (s cpAddr + d s), epdAddr (s cpAddr + d s + 1)] := fun h => by rw [hAs, if_pos h]
  clear hAs
  have scp : cpAddr ∉ scr := fun h => hh.cp (by simp only [callOnly, List.mem_cons, List.mem_append]; grind)
  have nA : ∀ A ∈ As, A ∉ cpAddr :: (wv + 348) :: scr := fun A hA h => (hh.nA A hA).2 (by
    simp only [callOnly, List.map_cons, List.map_nil, List.mem_cons, List.mem_append] at h ⊢; grind)
  generalize hA : epdAddr (s cpAddr + d s) = A at *
  generalize hA2 : epdAddr (s cpAddr + d s + 1) = A2 at *
  have hcA := (hh.nA A hm1).1
  refine Does.mono (cpwriter_call hw (I := I) (As := As) (scr := scr) (tscr := []) (R := fun j s' => if j < 3 then s' A = cwVal 2 j (x.valM s) (s A)
      else j = 3 → (i.valM s).toNat = 3 → FieldOp .set 1 3 (x.valM s) (s A) (s' A) ∧ FieldOp .set 1 0 (x.valM s >>> 8) (s A2) (s' A2)) (by omega) ha hb hh.hd ?_ ?_ skip_wp hh.ok hF hback hi
    (fun a b hab => hI a b (hab.mono fun y hy => ?_)) (fun A hA => (hh.nA A hA).2) hh.cp hh.src) ?_
  · intro j hj ej s2 hI2 c1 eA d3
    unfold cwwCases
    by_cases h : j < 3
    · simp only [if_pos h]
      obtain ⟨g1, g2⟩ := hsh _ h
      have sub : ∀ y ∈ (t j + 348) :: scr, y ∈ scr := by
        intro y hy
        rcases List.mem_cons.1 hy with rfl | hy
        · exact g2
        · exact hy
      refine Wp.mono (cwCase_does (nb := 2) (i := j) g1 hI2 (A := A) (by rw [c1, hA]) hcA (fun h => nA A hm1 ?_) (fun h => scp (sub _ h)) (fun a b hab => hI a b (hab.mono fun y hy => ?_))) ?_
      · simp only [List.mem_cons] at h ⊢; grind
      · simp only [callOnly, List.mem_cons, List.mem_append, List.not_mem_nil, or_false] at hy ⊢; grind
      · rintro o s3 ⟨rfl, f1, f2, f3⟩
        refine ⟨rfl, ?_, f2, ?_, f3.mono fun y hy => ?_⟩
        · rw [f1, eA A hm1, d3]; rfl
        · refine f3 _ fun h => ?_
          rcases List.mem_cons.1 h with h | h
          · exact nA A hm1 (by rw [h]; simp)
          · exact scp (sub _ h)
        · rcases List.mem_cons.1 hy with rfl | hy
          · simp [hm1]
          · have := sub y hy
            simp [this]
    · simp only [if_neg h]
      have e3 : (i.valM s).toNat = 3 := by omega
      have hm2 := hm3 e3
      have nA' : ∀ B ∈ As, B ∉ cpAddr :: scr := fun B hB h => nA B hB (by simp only [List.mem_cons] at h ⊢; grind)
      refine Wp.mono (wwCase3_does h3 hcc hI2 (A := A) (A2 := A2) (by rw [c1, hA]) (by rw [c1, hA2]) hcA (hh.nA A2 hm2).1 (nA' A hm1) (nA' A2 hm2) scp (fun a b hab => hI a b (hab.mono fun y hy => ?_))) ?_
      · simp only [callOnly, List.mem_cons, List.mem_append, List.not_mem_nil, or_false] at hy ⊢
        grind
      · rintro o s3 ⟨rfl, f1, f2, f3, f4, f5⟩
        rw [d3, eA A hm1] at f1
        rw [d3, eA A2 hm2] at f2
        refine ⟨rfl, fun _ _ => ⟨f1, f2⟩, f3, f4, f5.mono fun y hy => ?_⟩
        simp only [List.mem_append, List.mem_cons, List.not_mem_nil, or_false] at hy ⊢
        grind
  · intro j b b' h
    rw [h A hm1]
    by_cases h3' : (i.valM s).toNat = 3
    · rw [h A2 (hm3 h3')]; exact id
    · split
      · exact id
      · exact fun _ _ h => absurd h h3'
  · simp only [callOnly, List.mem_cons, List.mem_append, List.cons_append] at hy ⊢; grind
  · rintro s' ⟨k1, k2, k3, k4⟩
    refine ⟨?_, k2, k3, k4.mono fun y hy => by simpa using hy⟩
    by_cases h : (i.valM s).toNat < 3
    · rw [if_pos (by omega)] at k1
      simp only [if_pos h] at k1 ⊢
      exact ⟨k1, fun hx => by rw [k1]; exact cwVal_fits (by omega) hx _⟩
    · simp only [if_neg h] at k1 ⊢
      by_cases e3 : (i.valM s).toNat = 3
      · rw [if_pos (by omega)] at k1
        rw [if_pos e3]
        exact k1 e3 e3
      · rw [if_neg (by omega)] at k1
        rw [if_neg e3]
        exact k1 A hm1

end Eud.SC
