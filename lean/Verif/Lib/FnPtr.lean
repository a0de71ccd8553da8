import Verif.Lib.MemBase
import Verif.Lib.Ring
/-
C31: calls through function pointers (core/eudfunc/eudfptr.py), and what they do to later direct calls.

The variables that carry arguments and results are run with `VProc`, after their destinations and modifiers have been set; so they
are variables whose dwords are visible (`PVar`).  The next pointer of the end of the function is written by the indirect caller, so
it is a visible dword as well.
-/

namespace Eud.SC

/-! ## `VProc(v, v.QueueAssignTo(d))` -/

/-- `v` is copied to the dword `d`; the code goes on at `n`. -/
structure Copy where
  v : Nat
  d : Nat
  n : Nat

/-- eudv.py:240-241 `QueueAssignTo`: `SetDest`, `SetModifier(SetTo)` (eudv.py:150-180). -/
def qAssign (v d : Nat) : List PA := [aMem (v + 344) .set (epd d), aMemX (v + 352) .set 0x07000000 0xFF000000]

/-- eudfptr.py:36-50 `_fill_arguments`, `_fill_returns`. -/
def copies (L : Layout) (l : List Copy) : Stmt := .seqs (l.map fun c => vproc L c.v 0xFFFFFFFF c.n (qAssign c.v c.d))

/-- What the copies change. -/
def copScr (l : List Copy) : List Nat := l.flatMap fun c => [c.d, c.v + 4, c.v + 344, c.v + 352]

/-- Each copied variable, and the places, are different. -/
structure CopOk (L : Layout) (l : List Copy) : Prop where
  pv : ∀ c ∈ l, PVar L c.v
  cd : ∀ c ∈ l, L.cell c.d ∧ EpdOK c.d
  nd : (l.flatMap fun c => [c.d, c.v + 4, c.v + 344, c.v + 348, c.v + 352]).Nodup

theorem modi_any (md : Mod) : modify .set (pmod md) 0x07000000 0xFF000000 = pmod .set := by cases md <;> decide +kernel

theorem copy_does {L : Layout} {v d n : Nat} (hv : PVar L v) (hd : L.cell d) (he : EpdOK d) (hn : d ∉ [v + 4, v + 344, v + 348, v + 352]) {s : Mem} {md : Mod}
    (hm : s (v + 352) = pmod md) :
    Does L (vproc L v 0xFFFFFFFF n (qAssign v d)) s fun s' => s' d = s (v + 348) ∧ s' (v + 352) = pmod .set ∧ Only [d, v + 4, v + 344, v + 352] s s' := by
  simp only [List.mem_cons, List.not_mem_nil, or_false, not_or] at hn
  have e : runPA (qAssign v d) s = (s.set (v + 344) (epd d)).set (v + 352) (pmod .set) := by
    unfold qAssign
    rw [runPA_cons, runPA_cons, runPA_nil, aMem_run, aMemX_run, set_ne (show v + 352 ≠ v + 344 by omega), hm, modi_any]
    rfl
  have ha : ActsOk L (qAssign v d) s := actsOk_mem hv.dst (actsOk_memX hv.md trivial)
  refine vproc_full hv ha (md := .set) (d := d) ?_ ?_ he hd hn.1 ?_
  · rw [e, set_eq]
  · rw [e, set_ne (by omega), set_eq]
  · rw [e]
    refine ⟨?_, ?_, ?_⟩
    · rw [set_eq]
      show ((s.set (v + 344) (epd d)).set (v + 352) (pmod .set)) (v + 348) = _
      rw [set_ne (by omega), set_ne (by omega)]
    · rw [set_ne (by omega), set_ne (by omega), set_eq]
    · intro x hx
      simp only [List.mem_cons, List.not_mem_nil, or_false, not_or] at hx
      rw [set_ne hx.1, set_ne hx.2.1, set_ne hx.2.2.2, set_ne hx.2.2.1]

/-- **The copies**: every destination gets the value of its variable. -/
theorem copies_does {L : Layout} : ∀ (l : List Copy) (s : Mem), CopOk L l → (∀ c ∈ l, ∃ md, s (c.v + 352) = pmod md) →
    Does L (copies L l) s fun s' => (∀ c ∈ l, s' c.d = s (c.v + 348)) ∧ (∀ c ∈ l, s' (c.v + 352) = pmod .set) ∧ Only (copScr l) s s'
  | [], s, _, _ => Does.skip ⟨by simp, by simp, Only.refl _ _⟩
  | c :: l, s, h, hm => by
    have hnd := h.nd
    rw [List.flatMap_cons, List.nodup_append] at hnd
    obtain ⟨n1, n2, n3⟩ := hnd
    obtain ⟨md, hmd⟩ := hm c (by simp)
    have n4 : c.d ∉ [c.v + 4, c.v + 344, c.v + 348, c.v + 352] := (List.nodup_cons.1 n1).1
    have n5 : ∀ e ∈ l, ∀ y ∈ [e.d, e.v + 4, e.v + 344, e.v + 348, e.v + 352], ∀ x ∈ [c.d, c.v + 4, c.v + 344, c.v + 348, c.v + 352], x ≠ y := by
      intro e he y hy x hx
      exact n3 x hx y (List.mem_flatMap.2 ⟨e, he, hy⟩)
    have n6 : ∀ x ∈ [c.d, c.v + 4, c.v + 344, c.v + 348, c.v + 352], x ∉ copScr l := by
      intro x hx hh
      obtain ⟨e, he, hy⟩ := List.mem_flatMap.1 hh
      refine n5 e he x ?_ x hx rfl
      simp only [List.mem_cons, List.not_mem_nil, or_false] at hy ⊢
      rcases hy with h | h | h | h <;> simp [h]
    refine Does.seq ((copy_does (h.pv c (by simp)) (h.cd c (by simp)).1 (h.cd c (by simp)).2 n4 hmd).mono ?_)
    rintro s1 ⟨a1, a2, a3⟩
    have k1 : ∀ e ∈ l, ∀ y ∈ [e.d, e.v + 4, e.v + 344, e.v + 348, e.v + 352], s1 y = s y := by
      intro e he y hy
      refine a3 y fun hh => n5 e he y hy y ?_ rfl
      simp only [List.mem_cons, List.not_mem_nil, or_false] at hh ⊢
      rcases hh with h | h | h | h <;> simp [h]
    refine (copies_does l s1 ⟨fun e he => h.pv e (by simp [he]), fun e he => h.cd e (by simp [he]), n2⟩ ?_).mono ?_
    · intro e he
      rw [k1 e he _ (by simp)]
      exact hm e (by simp [he])
    · rintro s2 ⟨b1, b2, b3⟩
      refine ⟨?_, ?_, ?_⟩
      · intro e he
        rcases List.mem_cons.1 he with rfl | he
        · rw [b3 _ (n6 _ (by simp)), a1]
        · rw [b1 e he, k1 e he _ (by simp)]
      · intro e he
        rcases List.mem_cons.1 he with rfl | he
        · rw [b3 _ (n6 _ (by simp)), a2]
        · exact b2 e he
      · refine (a3.mono ?_).trans (b3.mono ?_)
        · intro x hx; exact List.mem_flatMap.2 ⟨c, by simp, hx⟩
        · intro x hx
          obtain ⟨e, he, hy⟩ := List.mem_flatMap.1 hx
          exact List.mem_flatMap.2 ⟨e, by simp [he], hy⟩

/-! ## The indirect caller of a function -/

/-- A function with its indirect caller (eudfptr.py:52-76): the copies of the shared argument variables into the parameters start at
`cs` and end at `cm`; the trigger `cm` sends the end of the function to `ck` and goes to the function; the copies of the result
variables into the shared result variables start at `ck` and end at `ce`.  The function itself is between `fs` and `fe`; its body
may change `scr`. -/
structure PFn where
  cs : Nat
  cm : Nat
  ck : Nat
  ce : Nat
  fs : Nat
  fe : Nat
  args : List Copy
  rets : List Copy
  body : Stmt
  scr : List Nat

namespace PFn

/-- The result variables. -/
def fr (F : PFn) : List Nat := F.rets.map Copy.v

/-- The code of the function and of its indirect caller. -/
structure At (L : Layout) (F : PFn) : Prop where
  ca : ∃ r b k, Code L r b k (copies L F.args) F.cs F.cm
  jm : (⟨F.cm, ⟨[], [aMem (F.fe + 4) .set (BitVec.ofNat 32 F.ck)].map PA.a⟩, some F.fs, false⟩ : SBlk) ∈ L.P.blks
  bo : ∃ b k, Code L F.fe b k F.body F.fs F.fe
  /-- eudfuncn.py:111-118, with the next pointer of the first trigger visible. -/
  fend : (⟨F.fe, ⟨[], retActs F.fr⟩, none, false⟩ : SBlk) ∈ L.P.blks
  cr : ∃ r b k, Code L r b k (copies L F.rets) F.ck F.ce
  ret : (⟨F.ce, ⟨[], []⟩, none, false⟩ : SBlk) ∈ L.P.blks
  lts : F.cs < 2 ^ 32
  ltk : F.ck < 2 ^ 32
  cfe : L.cell (F.fe + 4)
  cce : L.cell (F.ce + 4)
  ece : EpdOK (F.ce + 4)
  oka : CopOk L F.args
  okr : CopOk L F.rets
  /-- The dwords that steer control are not changed by the copies and the body. -/
  st : ∀ x ∈ [F.fe + 4, F.ce + 4], x ∉ copScr F.args ∧ x ∉ F.scr ∧ x ∉ copScr F.rets
  sv : ∀ x ∈ [F.fe + 4, F.ce + 4], ∀ c ∈ F.args ++ F.rets, x ≠ c.v + 348 ∧ x ≠ c.v + 352
  ne : F.ce ≠ F.fe
  /-- The modifiers of the result variables are not changed by the body; nor by the copies of the arguments. -/
  mr : ∀ c ∈ F.rets, c.v + 352 ∉ F.scr ∧ c.v + 352 ∉ copScr F.args
  ma : ∀ c ∈ F.args, c.v + 352 ∉ copScr F.rets

/-- Everything that a call through a pointer may change, besides the places of the call itself. -/
def own (F : PFn) : List Nat := (F.ce + 4) :: (F.fe + 4) :: (copScr F.args ++ F.scr ++ copScr F.rets)

end PFn

/-- eudfptr.py:154-156: the trigger `t` with the action `p`, `SetNextPtr(0, fcallend)`. -/
def aGo (p back : Nat) : PA := ⟨⟨none, .set, some (BitVec.ofNat 32 back), some 0xFFFFFFFF⟩, some p⟩

/-- The shared variables hold modifiers of variables. -/
def ModsOk (s : Mem) (l : List Copy) : Prop := ∀ c ∈ l, ∃ md, s (c.v + 352) = pmod md

/-- What the jump at trigger `t` to function `F` means. -/
def JumpRel (L : Layout) (F : PFn) (t p back : Nat) (s s' : Mem) : Prop :=
  s (t + 4) = BitVec.ofNat 32 F.cs ∧ s (p + 16) = epd (F.ce + 4) ∧ F.ce ≠ t ∧ ∃ o s1 s2,
    Exec L (copies L F.args) (s.set (F.ce + 4) (BitVec.ofNat 32 back)) .nrm s1 ∧ (o = .nrm ∨ o = .ret) ∧
    Exec L F.body (s1.set (F.fe + 4) (BitVec.ofNat 32 F.ck)) o s2 ∧ s2 (F.fe + 4) = BitVec.ofNat 32 F.ck ∧
    Exec L (copies L F.rets) (runS (retActs F.fr) (F.fe + 328) s2) .nrm s' ∧ s' (F.ce + 4) = BitVec.ofNat 32 back

/-- The jump, whichever of the functions `Fs` the pointer holds. -/
def JumpAny (L : Layout) (Fs : List PFn) (t p back : Nat) (s s' : Mem) : Prop := ∃ F ∈ Fs, JumpRel L F t p back s s'

theorem aGo_run {s : Mem} {p d back : Nat} (h : s (p + 16) = epd d) (he : EpdOK d) : (aGo p back).run s = s.set d (BitVec.ofNat 32 back) := by
  unfold PA.run
  simp only [aGo, SAct.res, h, dstOf_epd he, Option.getD_none, Option.getD_some, Act.apply, Dst.addr, modify_full, arith]

theorem aGo_ok {L : Layout} {s : Mem} {p d back : Nat} (h : s (p + 16) = epd d) (he : EpdOK d) (hc : L.cell d) : ActsOk L [aGo p back] s := by
  refine ⟨fun _ => ?_, ?_, trivial⟩
  · rw [show (aGo p back).pos.getD 0 = p from rfl, h, dstOf_epd he]
    rfl
  · simp only [aGo, SAct.res, h, dstOf_epd he, Option.getD_none, Option.getD_some, Dst.addr]
    exact hc

theorem retActs_out : ∀ (vs : List Nat) (x : Nat) (s : Mem) (y : Nat), (∀ v ∈ vs, y ≠ v + 4) → runS (retActs vs) x s y = s y
  | [], _, _, _, _ => rfl
  | [v], x, s, y, h => by
    simp only [retActs, runS, SAct.res, Option.getD_some, Option.getD_none, Act.apply, Dst.addr]
    exact set_ne (h v (by simp))
  | v :: w :: vs, x, s, y, h => by
    simp only [retActs, runS, sNext_apply]
    rw [retActs_out (w :: vs) _ _ _ (fun u hu => h u (List.mem_cons_of_mem _ hu)), set_ne (h v (by simp))]

theorem copScr_mem {l : List Copy} {c : Copy} (h : c ∈ l) : c.d ∈ copScr l ∧ c.v + 4 ∈ copScr l ∧ c.v + 344 ∈ copScr l ∧ c.v + 352 ∈ copScr l :=
  ⟨List.mem_flatMap.2 ⟨c, h, by simp⟩, List.mem_flatMap.2 ⟨c, h, by simp⟩, List.mem_flatMap.2 ⟨c, h, by simp⟩, List.mem_flatMap.2 ⟨c, h, by simp⟩⟩

theorem CopOk.sep {L : Layout} {l : List Copy} (h : CopOk L l) : ∀ c ∈ l, ∀ e ∈ l, c.v + 348 ≠ e.v + 4 ∧ c.v + 352 ≠ e.v + 4 := by
  have hn := h.nd
  clear h
  induction l with
  | nil => intro c hc; simp at hc
  | cons a l ih =>
    rw [List.flatMap_cons, List.nodup_append] at hn
    have k : ∀ e ∈ l, ∀ x ∈ [a.d, a.v + 4, a.v + 344, a.v + 348, a.v + 352], ∀ y ∈ [e.d, e.v + 4, e.v + 344, e.v + 348, e.v + 352], x ≠ y :=
      fun e he x hx y hy => hn.2.2 x hx y (List.mem_flatMap.2 ⟨e, he, hy⟩)
    intro c hc e he
    rcases List.mem_cons.1 hc with h1 | h1 <;> rcases List.mem_cons.1 he with h2 | h2
    · subst h1; subst h2; omega
    · subst h1; exact ⟨k e h2 _ (by simp) _ (by simp), k e h2 _ (by simp) _ (by simp)⟩
    · subst h2; exact ⟨Ne.symm (k c h1 _ (by simp) _ (by simp)), Ne.symm (k c h1 _ (by simp) _ (by simp))⟩
    · exact ih hn.2.1 c h1 e h2

/-- The end of the function goes where its next pointer says. -/
theorem PFn.At.end_runs {L : Layout} (hw : L.Wf) {F : PFn} (hF : F.At L) {s : Mem} {n : Nat} (h : s (F.fe + 4) = BitVec.ofNat 32 n) (hn : n < 2 ^ 32) :
    L.Runs s F.fe (runS (retActs F.fr) (F.fe + 328) s) n := by
  have hc : ∀ v ∈ F.fr, L.cell (v + 4) := by
    intro v hv
    obtain ⟨c, hc, rfl⟩ := List.mem_map.1 hv
    exact (hF.okr.pv c hc).nxt
  have := Layout.Runs.trigDyn hw hF.fend rfl hF.cfe.2 (s := s) trivial (fun _ => retActs_acts _ _ _ hc)
  rw [show (⟨F.fe, ⟨[], retActs F.fr⟩, Option.none, false⟩ : SBlk).exec s = runS (retActs F.fr) (F.fe + 328) s from rfl] at this
  rwa [retActs_out _ _ _ (F.fe + 4), h, BitVec.toNat_ofNat, Nat.mod_eq_of_lt hn] at this
  intro v hv e
  obtain ⟨c, hc, rfl⟩ := List.mem_map.1 hv
  exact (hF.st _ (by simp)).2.2 (e ▸ (copScr_mem hc).2.1)

/-- **The jump** as a piece of code. -/
theorem jump_code {L : Layout} (hw : L.Wf) {Fs : List PFn} (hF : ∀ F ∈ Fs, F.At L) {t p back : Nat} (hp : p = t + 328)
    (hb : (⟨t, ⟨[], [aGo p back].map PA.a⟩, none, false⟩ : SBlk) ∈ L.P.blks) (ct : L.cell (t + 4)) (hback : back < 2 ^ 32) {r b k : Nat} :
    Code L r b k (.prim (JumpAny L Fs t p back)) t back := by
  refine .prim ?_
  rintro s s' ⟨F, hFs, h1, h2, hne, o, s1, s2, e1, ho, e2, h3, e3, h4⟩
  have hF := hF F hFs
  obtain ⟨ra, ba, ka, ca⟩ := hF.ca
  obtain ⟨bb, kb, cb⟩ := hF.bo
  obtain ⟨rr, br, kr, cr⟩ := hF.cr
  have g1 := Layout.Runs.dyn hw (cs := []) hb ct.2 trivial ⟨hp ▸ rfl, trivial⟩ (s := s) (by simp) (fun _ => aGo_ok h2 hF.ece hF.cce)
  rw [if_pos (holdsAll_nil s), runPA_cons, runPA_nil, aGo_run h2 hF.ece, set_ne (show t + 4 ≠ F.ce + 4 by omega), h1, BitVec.toNat_ofNat, Nat.mod_eq_of_lt hF.lts] at g1
  have g2 := C25_structured hw e1 ca
  have g3 : L.Runs s1 F.cm (s1.set (F.fe + 4) (BitVec.ofNat 32 F.ck)) F.fs := by
    have e : Exec L (.trig [] [aMem (F.fe + 4) .set (BitVec.ofNat 32 F.ck)]) s1 .nrm (runPA [aMem (F.fe + 4) .set (BitVec.ofNat 32 F.ck)] s1) :=
      .acts (actsOk_mem hF.cfe trivial)
    rw [runPA_cons, runPA_nil, aMem_run] at e
    exact C25_structured hw e (Code.trig (r := 0) (b := 0) (k := 0) (cs := []) trivial ⟨⟨rfl, rfl, rfl⟩, trivial⟩ hF.jm)
  have g4 : L.Runs (s1.set (F.fe + 4) (BitVec.ofNat 32 F.ck)) F.fs s2 F.fe := by
    have := C25_structured hw e2 cb
    rcases ho with rfl | rfl <;> exact this
  have g5 := hF.end_runs hw h3 hF.ltk
  have g6 := C25_structured hw e3 cr
  have g7 := Layout.Runs.trigDyn hw hF.ret rfl hF.cce.2 (s := s') trivial (fun _ => trivial)
  rw [show (⟨F.ce, ⟨[], []⟩, Option.none, false⟩ : SBlk).exec s' = s' from rfl, h4, BitVec.toNat_ofNat, Nat.mod_eq_of_lt hback] at g7
  exact (((((g1.trans g2).trans g3).trans g4).trans g5).trans g6).trans g7

/-- **The effect of the jump**: the function runs on the values of the shared argument variables, and its results are in the shared
result variables. -/
theorem jump_does {L : Layout} {F : PFn} (hF : F.At L) {t p back : Nat} (hne : F.ce ≠ t) {s : Mem} {Q : Mem → Prop} (h1 : s (t + 4) = BitVec.ofNat 32 F.cs)
    (h2 : s (p + 16) = epd (F.ce + 4)) (hma : ModsOk s F.args) (hmr : ModsOk s F.rets)
    (hb : ∀ s1, (∀ c ∈ F.args, s1 c.d = s (c.v + 348)) → Only ((F.ce + 4) :: (F.fe + 4) :: copScr F.args) s s1 →
      (∀ c ∈ F.args, s1 (c.v + 352) = pmod .set) → Wp L F.body s1 fun o s2 => (o = .nrm ∨ o = .ret) ∧ Q s2 ∧ Only F.scr s1 s2) {Fs : List PFn} (hm : F ∈ Fs) :
    Does L (.prim (JumpAny L Fs t p back)) s fun s' => (∃ s2, Q s2 ∧ (∀ c ∈ F.rets, s' c.d = s2 (c.v + 348)) ∧ Only (copScr F.rets) s2 s') ∧
      (∀ c ∈ F.rets, s' (c.v + 352) = pmod .set) ∧ (∀ c ∈ F.args, c.v + 352 ∉ F.scr → s' (c.v + 352) = pmod .set) ∧ s' (F.fe + 4) = BitVec.ofNat 32 F.ck ∧
      s' (F.ce + 4) = BitVec.ofNat 32 back ∧ Only F.own s s' := by
  obtain ⟨a1, a2, a3⟩ := hF.st (F.fe + 4) (by simp)
  obtain ⟨b1, b2, b3⟩ := hF.st (F.ce + 4) (by simp)
  have v1 := hF.sv (F.fe + 4) (by simp)
  have v2 := hF.sv (F.ce + 4) (by simp)
  obtain ⟨s1, x1, y1, y2, y3⟩ := copies_does F.args (s.set (F.ce + 4) (BitVec.ofNat 32 back)) hF.oka (by
    intro c hc
    rw [set_ne (Ne.symm (v2 c (by simp [hc])).2)]
    exact hma c hc)
  have y1' : ∀ c ∈ F.args, s1 c.d = s (c.v + 348) := by
    intro c hc
    rw [y1 c hc, set_ne (Ne.symm (v2 c (by simp [hc])).1)]
  obtain ⟨o, s2, x2, ho, hQ, z⟩ := hb (s1.set (F.fe + 4) (BitVec.ofNat 32 F.ck)) (by
      intro c hc
      rw [set_ne (fun e : c.d = F.fe + 4 => a1 (e ▸ (copScr_mem hc).1)), y1' c hc]) (by
      intro x hx
      simp only [List.mem_cons, not_or] at hx
      rw [set_ne hx.2.1, y3 x hx.2.2, set_ne hx.1]) (by
      intro c hc
      rw [set_ne (Ne.symm (v1 c (by simp [hc])).2), y2 c hc])
  have f1 : s2 (F.fe + 4) = BitVec.ofNat 32 F.ck := by rw [z _ a2, set_eq]
  have f2 : s2 (F.ce + 4) = BitVec.ofNat 32 back := by
    rw [z _ b2, set_ne (by have := hF.ne; omega), y3 _ b1, set_eq]
  have r0 : ∀ y, (∀ c ∈ F.rets, y ≠ c.v + 4) → runS (retActs F.fr) (F.fe + 328) s2 y = s2 y := by
    intro y hy
    refine retActs_out _ _ _ _ fun v hv => ?_
    obtain ⟨c, hc, rfl⟩ := List.mem_map.1 hv
    exact hy c hc
  have r1 := hF.okr.sep
  obtain ⟨s3, x3, w1, w2, w3⟩ := copies_does F.rets (runS (retActs F.fr) (F.fe + 328) s2) hF.okr (by
    intro c hc
    rw [r0 _ (fun e he => (r1 c hc e he).2), z _ (hF.mr c hc).1, set_ne (Ne.symm (v1 c (by simp [hc])).2), y3 _ (hF.mr c hc).2, set_ne (Ne.symm (v2 c (by simp [hc])).2)]
    exact hmr c hc)
  have w4 : Only (copScr F.rets) s2 s3 := by
    intro x hx
    rw [w3 x hx, r0 x (fun c hc e => hx (e ▸ (copScr_mem hc).2.1))]
  have f3 : s3 (F.ce + 4) = BitVec.ofNat 32 back := by rw [w4 _ b3, f2]
  refine Does.prim ⟨F, hm, h1, h2, hne, o, s1, s2, x1, ho, x2, f1, x3, f3⟩ ⟨⟨s2, hQ, ?_, w4⟩, w2, ?_, ?_, f3, ?_⟩
  · intro c hc
    rw [w1 c hc, r0 _ (fun e he => (r1 c hc e he).1)]
  · intro c hc hs
    rw [w4 _ (hF.ma c hc), z _ hs, set_ne (Ne.symm (v1 c (by simp [hc])).2), y2 c hc]
  · rw [w4 _ a3, f1]
  · intro x hx
    simp only [PFn.own, List.mem_cons, List.mem_append, not_or] at hx
    rw [w4 x hx.2.2.2, z x hx.2.2.1.2, set_ne hx.2.1, y3 x hx.2.2.1.1, set_ne hx.1]

/-! ## Calls through a pointer -/

/-- A call through a pointer (eudfptr.py:144-169): `pf` and `pe` are the variables with the fields of the pointer, `args` the shared
argument variables and the arguments, `outs` the dwords for the results and the shared result variables. -/
structure PCall where
  t : Nat
  back : Nat
  pf : Nat
  pe : Nat
  args : List (Nat × Src)
  outs : List (Nat × Nat)

namespace PCall

def asgA (C : PCall) : List Asg := C.args.map fun a => ⟨a.1, .set, a.2⟩
def asgP (C : PCall) : List Asg := [⟨C.t + 4, .set, .var C.pf⟩, ⟨C.t + 328 + 16, .set, .var C.pe⟩]
def asgR (C : PCall) : List Asg := C.outs.map fun o => ⟨o.1, .set, .var o.2⟩

/-- eudfptr.py:144-169 `__call__` -/
def stmt (C : PCall) (L : Layout) (Fs : List PFn) : Stmt :=
  .seqs [.asg C.asgA, .asg C.asgP, .prim (JumpAny L Fs C.t (C.t + 328) C.back), .asg C.asgR]

/-- What the call changes itself. -/
def own (C : PCall) : List Nat := C.args.map Prod.fst ++ [C.t + 4, C.t + 344]

/-- The places of a call of function `F`. -/
structure Ok (L : Layout) (C : PCall) (F : PFn) : Prop where
  ca : ∀ a ∈ C.args, L.cell a.1 ∧ ∀ v, a.2 = .var v → v ∈ L.P.vars
  na : (C.args.map Prod.fst).Nodup
  /-- no argument is one of the shared variables -/
  aa : ∀ a ∈ C.args, ∀ b ∈ C.args, ∀ v, b.2 = .var v → v + 348 ≠ a.1
  c4 : L.cell (C.t + 4)
  c16 : L.cell (C.t + 344)
  vp : C.pf ∈ L.P.vars ∧ C.pe ∈ L.P.vars
  po : C.pf + 348 ∉ C.own ∧ C.pe + 348 ∉ C.own
  vo : ∀ o ∈ C.outs, L.cell o.1 ∧ o.2 ∈ L.P.vars
  no : (C.outs.map Prod.fst).Nodup
  oo : ∀ o ∈ C.outs, ∀ q ∈ C.outs, q.2 + 348 ≠ o.1
  /-- the shared variables are those of the function -/
  ha : C.args.map Prod.fst = F.args.map fun c => c.v + 348
  hr : (C.outs.map fun o => o.2 + 348) = F.rets.map Copy.d
  ne : F.ce ≠ C.t
  at4 : ∀ c ∈ F.args, c.v + 348 ≠ C.t + 4 ∧ c.v + 348 ≠ C.t + 344
  mm : ∀ c ∈ F.args ++ F.rets, c.v + 352 ∉ C.own ∧ c.v + 352 ∉ C.outs.map Prod.fst
  st : ∀ x ∈ [F.fe + 4, F.ce + 4], x ∉ C.outs.map Prod.fst

end PCall

theorem zip_map_eq {α β γ : Type} {f : α → γ} {g : β → γ} : ∀ {l : List α} {k : List β}, l.map f = k.map g → ∀ q ∈ l.zip k, f q.1 = g q.2
  | [], _, _, q, hq => by simp at hq
  | _ :: _, [], _, q, hq => by simp at hq
  | a :: l, b :: k, h, q, hq => by
    simp only [List.map_cons, List.cons.injEq] at h
    rcases List.mem_cons.1 hq with rfl | hq
    · exact h.1
    · exact zip_map_eq h.2 q hq

theorem mem_zip_left {α β : Type} {l : List α} {k : List β} (h : l.length = k.length) {a : α} (ha : a ∈ l) : ∃ b, (a, b) ∈ l.zip k := by
  induction l generalizing k with
  | nil => simp at ha
  | cons x l ih =>
    cases k with
    | nil => simp at h
    | cons y k =>
      simp only [List.length_cons, Nat.add_right_cancel_iff] at h
      rcases List.mem_cons.1 ha with rfl | ha
      · exact ⟨y, by simp⟩
      · obtain ⟨b, hb⟩ := ih h ha
        exact ⟨b, by simp [hb]⟩

theorem asg_sets {l : List (Nat × Src)} {s : Mem} {x : Nat} (h : x ∉ l.map Prod.fst) : runAsg (l.map fun a => (⟨a.1, .set, a.2⟩ : Asg)) s x = s x := by
  refine runAsg_ne fun g hg e => ?_
  obtain ⟨a, ha, rfl⟩ := List.mem_map.1 hg
  exact h (e ▸ List.mem_map_of_mem ha)

/-- **C31 (calls through a pointer).** If the fields of the pointer are those of function `F`, whatever was called through pointers
before: the call runs the body of `F` on the values of the arguments, and delivers its results. -/
theorem C31_pointer {L : Layout} {C : PCall} {F : PFn} (hF : F.At L) (hC : C.Ok L F) {s : Mem} {Q : Mem → Prop} (h1 : s (C.pf + 348) = BitVec.ofNat 32 F.cs)
    (h2 : s (C.pe + 348) = epd (F.ce + 4)) (hma : ModsOk s F.args) (hmr : ModsOk s F.rets)
    (hb : ∀ s1, (∀ q ∈ F.args.zip C.args, s1 q.1.d = q.2.2.valM s) → Only (C.own ++ (F.ce + 4) :: (F.fe + 4) :: copScr F.args) s s1 →
      (∀ c ∈ F.args, s1 (c.v + 352) = pmod .set) → Wp L F.body s1 fun o s2 => (o = .nrm ∨ o = .ret) ∧ Q s2 ∧ Only F.scr s1 s2) {Fs : List PFn} (hm : F ∈ Fs) :
    Does L (C.stmt L Fs) s fun s' => (∃ s2, Q s2 ∧ (∀ q ∈ F.rets.zip C.outs, s' q.2.1 = s2 (q.1.v + 348)) ∧ Only (copScr F.rets ++ C.outs.map Prod.fst) s2 s') ∧
      ModsOk s' F.rets ∧ (∀ c ∈ F.args, c.v + 352 ∉ F.scr → s' (c.v + 352) = pmod .set) ∧ s' (F.fe + 4) = BitVec.ofNat 32 F.ck ∧
      s' (F.ce + 4) = BitVec.ofNat 32 C.back ∧ Only (C.own ++ F.own ++ C.outs.map Prod.fst) s s' := by
  obtain ⟨p1, p2⟩ := hC.po
  simp only [PCall.own, List.mem_append, List.mem_cons, List.not_mem_nil, or_false, not_or] at p1 p2
  refine Does.seq (Does.asg ?_ ?_ ?_)
  · intro g hg
    obtain ⟨a, ha, rfl⟩ := List.mem_map.1 hg
    exact (hC.ca a ha).1
  · intro g hg v hv
    obtain ⟨a, ha, rfl⟩ := List.mem_map.1 hg
    exact (hC.ca a ha).2 v hv
  have ea := args_run C.args s hC.na hC.aa
  have eo : ∀ x, x ∉ C.args.map Prod.fst → runAsg C.asgA s x = s x := fun x hx => asg_sets hx
  change ∀ a ∈ C.args, runAsg C.asgA s a.1 = _ at ea
  generalize runAsg C.asgA s = sa at ea eo
  refine Does.seq (Does.asg ?_ ?_ ?_)
  · intro g hg
    simp only [PCall.asgP, List.mem_cons, List.not_mem_nil, or_false] at hg
    rcases hg with rfl | rfl
    · exact hC.c4
    · exact hC.c16
  · intro g hg v hv
    simp only [PCall.asgP, List.mem_cons, List.not_mem_nil, or_false] at hg
    rcases hg with rfl | rfl <;> (cases hv)
    · exact hC.vp.1
    · exact hC.vp.2
  have eP : runAsg C.asgP sa = (sa.set (C.t + 4) (sa (C.pf + 348))).set (C.t + 344) (sa (C.pe + 348)) := by
    simp only [PCall.asgP, runAsg, Src.valM, arith]
    rw [set_ne p2.2.1]
  rw [eP, eo _ p1.1, eo _ p2.1, h1, h2]
  generalize hsb : (sa.set (C.t + 4) (BitVec.ofNat 32 F.cs)).set (C.t + 344) (epd (F.ce + 4)) = sb
  have o1 : ∀ x, x ≠ C.t + 4 → x ≠ C.t + 344 → sb x = sa x := by
    intro x h h'
    rw [← hsb, set_ne h', set_ne h]
  have o2 : Only C.own s sb := by
    intro x hx
    simp only [PCall.own, List.mem_append, List.mem_cons, List.not_mem_nil, or_false, not_or] at hx
    rw [o1 x hx.2.1 hx.2.2, eo x hx.1]
  have lenA : F.args.length = C.args.length := by have := congrArg List.length hC.ha; simpa using this.symm
  have lenR : C.outs.length = F.rets.length := by have := congrArg List.length hC.hr; simpa using this
  have zA : ∀ q ∈ F.args.zip C.args, sb (q.1.v + 348) = q.2.2.valM s := by
    intro q hq
    have e := zip_map_eq hC.ha.symm q hq
    have hx := hC.at4 q.1 (List.of_mem_zip hq).1
    rw [o1 _ hx.1 hx.2, e, ea q.2 (List.of_mem_zip hq).2]
  have mo : ∀ l : List Copy, (∀ c ∈ l, c ∈ F.args ++ F.rets) → ModsOk s l → ModsOk sb l := by
    intro l hl h c hc
    rw [o2 _ (hC.mm c (hl c hc)).1]
    exact h c hc
  refine Does.seq ((jump_does (Q := Q) (back := C.back) (p := C.t + 328) hF hC.ne (by rw [← hsb, set_ne (by omega), set_eq]) (by rw [← hsb, set_eq]) (mo _ (fun c h => by simp [h]) hma) (mo _ (fun c h => by simp [h]) hmr) ?_ hm).mono ?_)
  · intro s1 a1 a2 a3
    refine hb s1 ?_ ?_ a3
    · intro q hq
      rw [a1 q.1 (List.of_mem_zip hq).1, zA q hq]
    · intro x hx
      simp only [List.mem_append, not_or] at hx
      rw [a2 x hx.2, o2 x hx.1]
  · rintro s3 ⟨⟨s2, hQ, r1, r2⟩, m1, m2, f1, f2, f3⟩
    refine Does.seq (Does.asg ?_ ?_ (Does.skip ?_))
    · intro g hg
      obtain ⟨o, ho, rfl⟩ := List.mem_map.1 hg
      exact (hC.vo o ho).1
    · intro g hg v hv
      obtain ⟨o, ho, rfl⟩ := List.mem_map.1 hg
      cases hv
      exact (hC.vo o ho).2
    have eR : C.asgR = (C.outs.map fun o => (o.1, Src.var o.2)).map fun a => ⟨a.1, .set, a.2⟩ := by
      simp only [PCall.asgR, List.map_map, Function.comp_def]
    have ef : (C.outs.map fun o => (o.1, Src.var o.2)).map Prod.fst = C.outs.map Prod.fst := by simp only [List.map_map, Function.comp_def]
    have g1 : ∀ o ∈ C.outs, runAsg C.asgR s3 o.1 = s3 (o.2 + 348) := by
      intro o ho
      rw [eR]
      refine args_run _ s3 (ef ▸ hC.no) ?_ (o.1, .var o.2) (List.mem_map.2 ⟨o, ho, rfl⟩)
      intro a ha b hb v hv
      obtain ⟨x, hx, rfl⟩ := List.mem_map.1 ha
      obtain ⟨y, hy, rfl⟩ := List.mem_map.1 hb
      cases hv
      exact hC.oo x hx y hy
    have g2 : ∀ x, x ∉ C.outs.map Prod.fst → runAsg C.asgR s3 x = s3 x := by
      intro x hx
      rw [eR]
      exact asg_sets (ef.symm ▸ hx)
    refine ⟨⟨s2, hQ, ?_, ?_⟩, ?_, ?_, ?_, ?_, ?_⟩
    · intro q hq
      have hq' := List.of_mem_zip hq
      have e := zip_map_eq hC.hr.symm q hq
      rw [g1 q.2 hq'.2, ← e, r1 q.1 hq'.1]
    · intro x hx
      simp only [List.mem_append, not_or] at hx
      rw [g2 x hx.2, r2 x hx.1]
    · intro c hc
      exact ⟨.set, by rw [g2 _ (hC.mm c (by simp [hc])).2, m1 c hc]⟩
    · intro c hc hs
      rw [g2 _ (hC.mm c (by simp [hc])).2, m2 c hc hs]
    · rw [g2 _ (hC.st _ (by simp)), f1]
    · rw [g2 _ (hC.st _ (by simp)), f2]
    · intro x hx
      simp only [List.mem_append, not_or] at hx
      rw [g2 x hx.2, f3 x hx.1.2, o2 x hx.1.1]

/-! ## Direct calls of the same function -/

/-- Without results the next pointer of the end is the one that direct calls write as well.  So direct calls of such a function work
whatever was called before, through pointers or not (`C31_does`). -/
theorem PFn.At.direct {L : Layout} {F : PFn} (hF : F.At L) (h : F.rets = []) : FuncCode L F.fs F.fe (F.fe + 4) [] F.body := by
  refine ⟨hF.bo, ⟨fun _ => ⟨rfl, ?_⟩, fun v vs e => by simp at e, hF.cfe, fun v hv => by simp at hv, List.nodup_nil⟩⟩
  have := hF.fend
  rw [show F.fr = [] by simp [PFn.fr, h]] at this
  exact this

theorem C31_pointer_direct {L : Layout} (hw : L.Wf) {F : PFn} (hF : F.At L) (hr : F.rets = []) {back : Nat} {args : List (Nat × Src)}
    (hk : CallOk L (F.fe + 4) [] args F.scr) (hback : back < 2 ^ 32) {s : Mem} {Q : Mem → Prop}
    (hb : ∀ s1, (∀ a ∈ args, s1 a.1 = a.2.valM s) → Only ((F.fe + 4) :: args.map Prod.fst) s s1 → Wp L F.body s1 fun o s2 => (o = .nrm ∨ o = .ret) ∧ Q s2 ∧ Only F.scr s1 s2) :
    Does L (.prim (CallRel L F.fe (F.fe + 4) back F.body [] args)) s fun s' => Q s' ∧ Only (callOnly (F.fe + 4) [] args F.scr) s s' := by
  refine (C31_does hw hk (hF.direct hr) hback (Q := Q) (s := s) (fun s1 h1 h2 => hb s1 h1 (by simpa using h2))).mono ?_
  rintro s' ⟨⟨s2, hQ, -, h3⟩, h4⟩
  refine ⟨?_, h4⟩
  have : s' = s2 := funext fun x => h3 x (by simp)
  rwa [this]

/-- The result variables run one after the other, and then control is back at the caller. -/
theorem rets_runP {L : Layout} {back : Nat} (hback : back < 2 ^ 32) : ∀ (rs : List (Nat × Nat)) (s : Mem),
    (∀ r ∈ rs, PVar L r.1 ∧ r.1 < 2 ^ 32 ∧ s (r.1 + 352) = pmod .set) → (∀ r ∈ rs, ∀ q ∈ rs, r.2 ≠ q.1 + 352) → RetsReady L rs s → RetLinked s back rs →
    L.Runs s ((rs.map Prod.fst).headD back) (storeRets rs s) back
  | [], s, _, _, _, _ => Layout.Runs.refl _ _ _
  | (v, d) :: l, s, hb, hm, hR, hl => by
    obtain ⟨b1, b2, b3⟩ := hb (v, d) (by simp)
    obtain ⟨e1, e2, e3⟩ := hR.dest (v, d) (by simp)
    have hn : (l.map Prod.fst).headD back < 2 ^ 32 := by
      cases l with
      | nil => exact hback
      | cons r l => exact (hb r (by simp)).2.1
    have h1 := Layout.Runs.pvar b1 b3 e1 e2 e3
    rw [set_ne (Ne.symm (hR.sep (v, d) (by simp) (v, d) (by simp)).1), hl.1, BitVec.toNat_ofNat, Nat.mod_eq_of_lt hn] at h1
    refine h1.trans (rets_runP hback l _ (fun r hr => ⟨(hb r (by simp [hr])).1, (hb r (by simp [hr])).2.1, ?_⟩) (fun r hr q hq => hm r (by simp [hr]) q (by simp [hq])) ⟨?_, ?_, ?_⟩ ?_)
    · rw [set_ne (Ne.symm (hm (v, d) (by simp) r (by simp [hr])))]
      exact (hb r (by simp [hr])).2.2
    · intro r hr
      obtain ⟨q1, q2, q3⟩ := hR.dest r (by simp [hr])
      refine ⟨?_, q2, q3⟩
      rw [set_ne (Ne.symm (hR.sep (v, d) (by simp) r (by simp [hr])).2)]
      exact q1
    · exact fun r hr q hq => hR.sep r (by simp [hr]) q (by simp [hq])
    · exact fun r hr q hq => hR.off r (by simp [hr]) q (by simp [hq])
    · exact hl.2.congr (fun r hr => set_ne (Ne.symm (hR.sep (v, d) (by simp) r (by simp [hr])).1))

/-- eudfuncn.py:118: the dword with the return address, in the last of the linking actions. -/
def PFn.nptr (F : PFn) : Nat := F.fe + 328 + 32 * (F.fr.length - 1) + 20

/-- A direct call of a function with results.  The end of the function must still lead to the first result variable. -/
def DirRel (L : Layout) (F : PFn) (back : Nat) (rs : List (Nat × Nat)) (args : List (Nat × Src)) (s s' : Mem) : Prop :=
  ∃ o s2, Exec L (.asg (callAsg F.nptr back rs args)) s .nrm (runAsg (callAsg F.nptr back rs args) s) ∧
    (o = .nrm ∨ o = .ret) ∧ Exec L F.body (runAsg (callAsg F.nptr back rs args) s) o s2 ∧
    s2 F.nptr = BitVec.ofNat 32 back ∧ s2 (F.fe + 4) = BitVec.ofNat 32 (F.fr.headD 0) ∧ (∀ r ∈ rs, s2 (r.1 + 352) = pmod .set) ∧
    (∀ r ∈ rs, ∀ q ∈ rs, r.2 ≠ q.1 + 352 ∧ r.1 + 4 ≠ q.1 + 352) ∧ RetsReady L rs s2 ∧ s' = storeRets rs (retLink F.fe rs s2)

theorem dir_code {L : Layout} (hw : L.Wf) {F : PFn} (hF : F.At L) (hlt : ∀ v ∈ F.fr, v < 2 ^ 32) {e back : Nat} {rs : List (Nat × Nat)} (hrs : rs.map Prod.fst = F.fr) (hne : rs ≠ [])
    (hnd : (rs.map Prod.fst).Nodup) {args : List (Nat × Src)} (hC : CallSite L e back F.fs F.nptr rs args) (hnp : ∀ r ∈ rs, r.1 + 4 ≠ F.nptr) (r b k : Nat) :
    Code L r b k (.prim (DirRel L F back rs args)) e back := by
  apply Code.prim
  rintro s s' ⟨o, s2, h1, ho, h2, h3, hfe, hmd, hd2, h4, rfl⟩
  obtain ⟨r', b', k', hcode⟩ := hC.code
  obtain ⟨b1, k1, hbody⟩ := hF.bo
  have c1 : L.Runs s e _ F.fs := C25_structured hw h1 hcode
  have c2 : L.Runs (runAsg (callAsg F.nptr back rs args) s) F.fs s2 F.fe := by
    have := C25_structured hw h2 hbody
    rcases ho with rfl | rfl <;> exact this
  have hlen : F.fr.length = rs.length := by rw [← hrs, List.length_map]
  have hmem : ∀ r ∈ rs, r.1 ∈ F.fr := fun r hr => hrs ▸ List.mem_map_of_mem hr
  have hpv : ∀ v ∈ F.fr, PVar L v := by
    intro v hv
    obtain ⟨c, hc, rfl⟩ := List.mem_map.1 hv
    exact hF.okr.pv c hc
  have h0 : F.fr.headD 0 < 2 ^ 32 := by
    cases hh : F.fr with
    | nil => rw [hh] at hlen; cases rs <;> simp_all
    | cons v l => exact hlt v (by simp [hh])
  obtain ⟨i1, i2⟩ := retActs_run rs (F.fe + 328) s2 back hne hnd (by rw [← hlen]; exact hnp) (by rw [← hlen]; exact h3)
  have c3 := hF.end_runs hw hfe h0
  rw [← hrs] at c3
  have c4 := rets_runP (L := L) hC.back rs (runS (retActs (rs.map Prod.fst)) (F.fe + 328) s2) (fun r hr => ⟨hpv _ (hmem r hr), hlt _ (hmem r hr), by
      rw [i2 _ (fun q hq => Ne.symm (hd2 q hq r hr).2)]; exact hmd r hr⟩) (fun r hr q hq => (hd2 r hr q hq).1) ⟨fun q hq => by
      rw [i2 _ (fun r hr => Ne.symm (h4.off r hr q hq))]; exact h4.dest q hq, h4.sep, h4.off⟩ i1
  have e0 : (rs.map Prod.fst).headD 0 = (rs.map Prod.fst).headD back := by cases rs with | nil => exact absurd rfl hne | cons a l => rfl
  rw [e0] at c3
  exact ((c1.trans c2).trans c3).trans c4

/-- **C31 (direct calls of a function with results).** While no call through a pointer has redirected the end of the function, a direct
call runs the body on the arguments and stores the results; and this stays so. -/
theorem C31_direct {L : Layout} {F : PFn} {back : Nat} {rs : List (Nat × Nat)} (hrs : rs.map Prod.fst = F.fr)
    {args : List (Nat × Src)} (hk : CallOk L F.nptr rs args F.scr) (hs : F.fe + 4 ∉ callOnly F.nptr rs args F.scr)
    (hm2 : ∀ r ∈ rs, r.1 + 352 ∉ callOnly F.nptr rs args F.scr) {s : Mem} {Q : Mem → Prop}
    (hfe : s (F.fe + 4) = BitVec.ofNat 32 (F.fr.headD 0)) (hmd : ∀ r ∈ rs, s (r.1 + 352) = pmod .set)
    (hb : ∀ s1, (∀ a ∈ args, s1 a.1 = a.2.valM s) → Only (F.nptr :: (rs.map (fun r => r.1 + 344) ++ args.map Prod.fst)) s s1 →
      Wp L F.body s1 fun o s2 => (o = .nrm ∨ o = .ret) ∧ Q s2 ∧ Only F.scr s1 s2) :
    Does L (.prim (DirRel L F back rs args)) s fun s' =>
      (∃ s2, Q s2 ∧ (∀ r ∈ rs, s' r.2 = s2 (r.1 + 348)) ∧ Only (rs.map Prod.snd ++ rs.map (fun r => r.1 + 4)) s2 s') ∧
      s' (F.fe + 4) = BitVec.ofNat 32 (F.fr.headD 0) ∧ (∀ r ∈ rs, s' (r.1 + 352) = pmod .set) ∧ Only (callOnly F.nptr rs args F.scr) s s' := by
  obtain ⟨e1, e2, e3, e4⟩ := C31_entry (back := back) (s := s) hk.na hk.aa hk.an hk.pn hk.rn hk.nr
  have eO : Only (F.nptr :: (rs.map (fun r => r.1 + 344) ++ args.map Prod.fst)) s (runAsg (callAsg F.nptr back rs args) s) := by
    intro x hx
    simp only [List.mem_cons, List.mem_append, List.mem_map, not_or, not_exists, not_and] at hx
    exact e4 x hx.1 (fun a ha e => hx.2.2 a ha e.symm) (fun r hr e => hx.2.1 r hr e.symm)
  obtain ⟨o, s2, h1, ho, hQ, hO⟩ := hb (runAsg (callAsg F.nptr back rs args) s) e1 eO
  have hready : RetsReady L rs s2 := by
    refine ⟨fun r hr => ⟨?_, (hk.cr r hr).2.2, (hk.cr r hr).2.1⟩, fun r hr q hq => ⟨(hk.rr r hr q hq).1, (hk.rr r hr q hq).2.1⟩,
      fun r hr q hq => (hk.rr r hr q hq).2.2.2.1⟩
    rw [hO _ (hk.sr r hr), e3 r hr]
  have hn2 : s2 F.nptr = BitVec.ofNat 32 back := by rw [hO _ hk.sn, e2]
  have kk : ∀ x, x ∉ callOnly F.nptr rs args F.scr → s2 x = s x := by
    intro x hx
    simp only [callOnly, List.mem_cons, List.mem_append, not_or] at hx
    rw [hO x hx.2.2, eO x]
    simp only [List.mem_cons, List.mem_append, not_or]
    exact ⟨hx.1, hx.2.1.1.2, hx.2.1.2⟩
  have hl : ∀ x, (∀ r ∈ rs, x ≠ r.1 + 4) → retLink F.fe rs s2 x = s2 x := by
    intro x hx
    refine retActs_out _ _ _ _ fun v hv => ?_
    obtain ⟨r, hr, rfl⟩ := List.mem_map.1 hv
    exact hx r hr
  obtain ⟨x1, x2⟩ := C31_exit (fend := F.fe) hl hk.nd (fun r hr q hq => (hk.rr r hr q hq).2.2.1) (fun r hr q hq => (hk.rr r hr q hq).2.2.2.2)
  have o2 : Only (rs.map Prod.snd ++ rs.map (fun r => r.1 + 4)) s2 (storeRets rs (retLink F.fe rs s2)) := by
    intro x hx
    simp only [List.mem_append, List.mem_map, not_or, not_exists, not_and] at hx
    exact x2 x (fun r hr => ⟨fun e => hx.1 r hr e.symm, fun e => hx.2 r hr e.symm⟩)
  have o3 : Only (callOnly F.nptr rs args F.scr) s (storeRets rs (retLink F.fe rs s2)) := by
    intro x hx
    rw [← kk x hx]
    refine o2 x ?_
    simp only [callOnly, List.mem_cons, List.mem_append, not_or] at hx ⊢
    exact ⟨hx.2.1.1.1.1, hx.2.1.1.1.2⟩
  refine Does.prim ⟨o, s2, ?_, ho, h1, hn2, by rw [kk _ hs, hfe], fun r hr => by rw [kk _ (hm2 r hr), hmd r hr], ?_, hready, rfl⟩ ⟨⟨s2, hQ, x1, o2⟩, by rw [o3 _ hs, hfe], fun r hr => by rw [o3 _ (hm2 r hr), hmd r hr], o3⟩
  · refine .asg ?_ ?_
    · intro g hg
      simp only [callAsg, List.cons_append, List.mem_cons, List.mem_append, List.mem_map] at hg
      rcases hg with rfl | ⟨r, hr, rfl⟩ | ⟨a, ha, rfl⟩
      · exact hk.cn
      · exact (hk.cr r hr).1
      · exact (hk.ca a ha).1
    · intro g hg v hv
      simp only [callAsg, List.cons_append, List.mem_cons, List.mem_append, List.mem_map] at hg
      rcases hg with rfl | ⟨r, hr, rfl⟩ | ⟨a, ha, rfl⟩
      · cases hv
      · cases hv
      · exact (hk.ca a ha).2 v hv
  · intro r hr q hq
    have := hm2 q hq
    simp only [callOnly, List.mem_cons, List.mem_append, List.mem_map, not_or, not_exists, not_and] at this
    exact ⟨this.2.1.1.1.1 r hr, this.2.1.1.1.2 r hr⟩

/-- **C31 fails after a call through a pointer, for functions with results.** A call through a pointer leaves the next pointer of the
end of the function at the indirect caller (`C31_pointer`).  From then on a direct call runs the body, but does not come back to its
own caller: control goes to the place where the last call through the pointer returned to, and the destinations of the direct call
are not written; its results are taken for those of that call. -/
theorem C31_direct_after_pointer {L : Layout} (hw : L.Wf) {F : PFn} (hF : F.At L) {e back w : Nat} {rs : List (Nat × Nat)}
    {args : List (Nat × Src)} (hC : CallSite L e back F.fs F.nptr rs args) (hk : CallOk L F.nptr rs args F.scr) (hw' : w < 2 ^ 32)
    (hs : ∀ x ∈ [F.fe + 4, F.ce + 4], x ∉ callOnly F.nptr rs args F.scr) (hm2 : ∀ c ∈ F.rets, c.v + 352 ∉ callOnly F.nptr rs args F.scr) {s : Mem}
    (hfe : s (F.fe + 4) = BitVec.ofNat 32 F.ck) (hce : s (F.ce + 4) = BitVec.ofNat 32 w) (hmd : ModsOk s F.rets) {Q : Mem → Prop}
    (hb : ∀ s1, (∀ a ∈ args, s1 a.1 = a.2.valM s) → Only (F.nptr :: (rs.map (fun r => r.1 + 344) ++ args.map Prod.fst)) s s1 →
      Wp L F.body s1 fun o s2 => (o = .nrm ∨ o = .ret) ∧ Q s2 ∧ Only F.scr s1 s2) :
    ∃ s', L.Runs s e s' w ∧ (∃ s2, Q s2 ∧ ∀ c ∈ F.rets, s' c.d = s2 (c.v + 348)) ∧ s' (F.fe + 4) = BitVec.ofNat 32 F.ck ∧ s' (F.ce + 4) = BitVec.ofNat 32 w ∧ (∀ c ∈ F.rets, s' (c.v + 352) = pmod .set) ∧
      Only (F.nptr :: (rs.map (fun r => r.1 + 344) ++ args.map Prod.fst ++ F.scr ++ copScr F.rets)) s s' := by
  obtain ⟨e1, e2, e3, e4⟩ := C31_entry (back := back) (s := s) hk.na hk.aa hk.an hk.pn hk.rn hk.nr
  have eO : Only (F.nptr :: (rs.map (fun r => r.1 + 344) ++ args.map Prod.fst)) s (runAsg (callAsg F.nptr back rs args) s) := by
    intro x hx
    simp only [List.mem_cons, List.mem_append, List.mem_map, not_or, not_exists, not_and] at hx
    exact e4 x hx.1 (fun a ha e => hx.2.2 a ha e.symm) (fun r hr e => hx.2.1 r hr e.symm)
  obtain ⟨o, s2, h1, ho, hQ, hO⟩ := hb (runAsg (callAsg F.nptr back rs args) s) e1 eO
  have kk : ∀ x, x ∉ callOnly F.nptr rs args F.scr → s2 x = s x := by
    intro x hx
    simp only [callOnly, List.mem_cons, List.mem_append, not_or] at hx
    rw [hO x hx.2.2, eO x]
    simp only [List.mem_cons, List.mem_append, not_or]
    exact ⟨hx.1, hx.2.1.1.2, hx.2.1.2⟩
  obtain ⟨r', b', k', hcode⟩ := hC.code
  obtain ⟨b1, k1, hbody⟩ := hF.bo
  obtain ⟨rr, br, kr, cr⟩ := hF.cr
  have c1 : L.Runs s e (runAsg (callAsg F.nptr back rs args) s) F.fs := by
    refine C25_structured hw (o := .nrm) ?_ hcode
    refine .asg ?_ ?_
    · intro g hg
      simp only [callAsg, List.cons_append, List.mem_cons, List.mem_append, List.mem_map] at hg
      rcases hg with rfl | ⟨r, hr, rfl⟩ | ⟨a, ha, rfl⟩
      · exact hk.cn
      · exact (hk.cr r hr).1
      · exact (hk.ca a ha).1
    · intro g hg v hv
      simp only [callAsg, List.cons_append, List.mem_cons, List.mem_append, List.mem_map] at hg
      rcases hg with rfl | ⟨r, hr, rfl⟩ | ⟨a, ha, rfl⟩
      · cases hv
      · cases hv
      · exact (hk.ca a ha).2 v hv
  have c2 : L.Runs (runAsg (callAsg F.nptr back rs args) s) F.fs s2 F.fe := by
    have := C25_structured hw h1 hbody
    rcases ho with rfl | rfl <;> exact this
  have c3 := hF.end_runs hw (s := s2) (n := F.ck) (by rw [kk _ (hs _ (by simp)), hfe]) hF.ltk
  have r0 : ∀ y, (∀ c ∈ F.rets, y ≠ c.v + 4) → runS (retActs F.fr) (F.fe + 328) s2 y = s2 y := by
    intro y hy
    refine retActs_out _ _ _ _ fun v hv => ?_
    obtain ⟨c, hc, rfl⟩ := List.mem_map.1 hv
    exact hy c hc
  obtain ⟨s3, x3, w1, w2, w3⟩ := copies_does F.rets (runS (retActs F.fr) (F.fe + 328) s2) hF.okr (by
    intro c hc
    rw [r0 _ (fun e he => (hF.okr.sep c hc e he).2), kk _ (hm2 c hc)]
    exact hmd c hc)
  have w4 : Only (copScr F.rets) s2 s3 := by
    intro x hx
    rw [w3 x hx, r0 x (fun c hc e => hx (e ▸ (copScr_mem hc).2.1))]
  have f3 : s3 (F.ce + 4) = BitVec.ofNat 32 w := by rw [w4 _ (hF.st _ (by simp)).2.2, kk _ (hs _ (by simp)), hce]
  have c4 := C25_structured hw x3 cr
  have c5 := Layout.Runs.trigDyn hw hF.ret rfl hF.cce.2 (s := s3) trivial (fun _ => trivial)
  rw [show (⟨F.ce, ⟨[], []⟩, Option.none, false⟩ : SBlk).exec s3 = s3 from rfl, f3, BitVec.toNat_ofNat, Nat.mod_eq_of_lt hw'] at c5
  refine ⟨s3, (((c1.trans c2).trans c3).trans c4).trans c5, ⟨s2, hQ, fun c hc => by rw [w1 c hc, r0 _ (fun e he => (hF.okr.sep c hc e he).1)]⟩, ?_, f3, w2, ?_⟩
  · rw [w4 _ (hF.st _ (by simp)).2.2, kk _ (hs _ (by simp)), hfe]
  · intro x hx
    simp only [List.mem_cons, List.mem_append, not_or] at hx
    rw [w4 x hx.2.2, hO x hx.2.1.2, eO x (by simp only [List.mem_cons, List.mem_append, not_or]; exact ⟨hx.1, hx.2.1.1⟩)]

end Eud.SC
