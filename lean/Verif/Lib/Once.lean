import Verif.Lib.Trigger
/-
Code that runs once: `EUDExecuteOnce` (src/eudplib/ctrlstru/simpleblock.py:117-167) and triggers that are not preserved.

Such code has two phases, before and after.  In the first phase its first trigger is an ordinary trigger of the program; in the
second phase that trigger is disabled (flag dword 8) and its next pointer leads behind the code.  There is a layout for each phase;
what is visible is the same in both.
-/

namespace Eud.SC

/-- A disabled trigger is passed over. -/
theorem step_skip {m : Mem} {t n : Nat} (hf : m (t + 2376) = 8) (hn : m (t + 4) = BitVec.ofNat 32 n) (hl : n < 2 ^ 32) : step ⟨m, t⟩ = some ⟨m, n⟩ := by
  rw [step_disabled hf, hn, BitVec.toNat_ofNat, Nat.mod_eq_of_lt hl]

/-! ## `EUDExecuteOnce` -/

/-- The layouts before and after: `st` is the first trigger and `fin` the end of the block.  A dword `r.1 + 4` listed in `rest` has the
value `r.2`, so `(st + 2372, 8)` says that the flag dword of `st` is 8. -/
structure OncePair (LF LD : Layout) (st fin : Nat) : Prop where
  vars : LD.P.vars = LF.P.vars
  seqs : LD.P.seqs = LF.P.seqs
  blks : ∀ b ∈ LD.P.blks, b ∈ LF.P.blks ∨ ∃ b0 ∈ LF.P.blks, b0.t = st ∧ b = { b0 with next := none, once := true }
  rest : ∀ r ∈ LD.rest, r ∈ LF.rest ∨ r = (st, fin) ∨ r = (st + 2372, 8)
  r1 : (st, fin) ∈ LD.rest
  r2 : (st + 2372, 8) ∈ LD.rest
  priv : ∀ x, LD.priv x ↔ LF.priv x

theorem SBlkAt.relax {m : Mem} {b : SBlk} (h : SBlkAt m b) : SBlkAt m { b with next := none, once := true } :=
  ⟨h.cl, h.al, h.cond, h.cend, h.act, h.aend, (fun e => by cases e), (fun n e => by cases e)⟩

theorem OncePair.in {LF LD : Layout} {st fin : Nat} (h : OncePair LF LD st fin) {m : Mem} (hm : LF.P.In m) : LD.P.In m := by
  refine ⟨?_, by rw [h.seqs]; exact hm.seqs, by rw [h.vars]; exact hm.vars⟩
  intro b hb
  rcases h.blks b hb with h1 | ⟨b0, h1, -, rfl⟩
  · exact hm.blks b h1
  · exact (hm.blks b0 h1).relax

theorem OncePair.view {LF LD : Layout} {st fin : Nat} (h : OncePair LF LD st fin) (m : Mem) : LD.view m = LF.view m := by
  funext x
  unfold Layout.view
  by_cases hx : LF.priv x
  · rw [if_pos hx, if_pos ((h.priv x).2 hx)]
  · rw [if_neg hx, if_neg (fun g => hx ((h.priv x).1 g))]

/-- The two writes at the end of the block lead to the second phase. -/
theorem OncePair.done {LF LD : Layout} {st fin : Nat} (h : OncePair LF LD st fin) (hw : LD.Wf) {m : Mem} (hm : LF.P.In m)
    (hk : ∀ v ∈ LF.P.vars, m (v + 328) = 0xFFFFFFFF) (hr : ∀ r ∈ LF.rest, r ∈ LD.rest → r.1 ≠ st → m (r.1 + 4) = BitVec.ofNat 32 r.2) :
    LD.Ok ((m.set (st + 4) (BitVec.ofNat 32 fin)).set (st + 2376) 8) := by
  have d1 := hw.rdat _ h.r1
  have d2 := hw.rdat _ h.r2
  refine ⟨((h.in hm).congr (Prog.Same.set (d1.okw _ _))).congr (Prog.Same.set (d2.okw _ _)), ?_, ?_⟩
  · intro v hv
    have e1 := (hw.rsep _ h.r1 v hv).1
    have e2 := (hw.rsep _ h.r2 v hv).1
    rw [set_ne (Ne.symm e2), set_ne (Ne.symm e1)]
    exact hk v (h.vars ▸ hv)
  · intro r hr'
    by_cases e2 : r.1 = st + 2372
    · have := hw.rinj r hr' _ h.r2 e2
      subst this
      exact set_eq _ _ _
    · by_cases e1 : r.1 = st
      · have := hw.rinj r hr' _ h.r1 e1
        subst this
        rw [set_ne (by simp only; omega)]
        exact set_eq _ _ _
      · rw [set_ne (by omega), set_ne (by omega)]
        rcases h.rest r hr' with g | g | g
        · exact hr r g hr' e1
        · subst g; exact absurd rfl e1
        · subst g; exact absurd rfl e2

/-- The two actions that end the once-only block (simpleblock.py:143-146 and 162-167). -/
def skipActs (st fin : Nat) : List SAct := [sNext st fin, sMem (st + 2376) .set 8]

theorem skip_run (st fin x : Nat) (m : Mem) : runS (skipActs st fin) x m = (m.set (st + 4) (BitVec.ofNat 32 fin)).set (st + 2376) 8 := by
  simp only [skipActs, runS, sNext_apply, sMem_apply]
  rfl

theorem OncePair.acts {LF LD : Layout} {st fin : Nat} (h : OncePair LF LD st fin) (hw : LD.Wf) (x : Nat) (m : Mem) : LD.P.Acts (skipActs st fin) x m := by
  have d1 := hw.rdat _ h.r1
  have d2 := hw.rdat _ h.r2
  exact Prog.acts_next d1 (LD.P.acts_mem d2 trivial)

theorem OncePair.priv1 {LF LD : Layout} {st fin : Nat} (h : OncePair LF LD st fin) : LD.priv (st + 4) := Layout.Wf.privR h.r1
theorem OncePair.priv2 {LF LD : Layout} {st fin : Nat} (h : OncePair LF LD st fin) : LD.priv (st + 2376) := Layout.Wf.privR h.r2

/-- **C28 (afterwards).** In the second phase the block is skipped. -/
theorem C28_later {LF LD : Layout} {st fin : Nat} (h : OncePair LF LD st fin) (hw : LD.Wf) (s : Mem) : LD.Runs s st s fin := by
  intro m hm hv
  exact ⟨m, Reaches.step (step_skip (hm.rest _ h.r2) (hm.rest _ h.r1) (hw.rlt _ h.r1)), hm, hv⟩

/-- **C28 (the first time), no condition.** If the body leads from `s` to `s'`, then the block does so and ends in the second phase.  The
body is whatever is between `EUDExecuteOnce()()` and `EUDEndExecuteOnce()`, and `te` the trigger emitted by the latter (simpleblock.py:161-168).
The same with `EUDExecuteOnce()(conditions, neg=True)` when the conditions do not hold. -/
theorem C28_first {LF LD : Layout} {st fin te : Nat} (h : OncePair LF LD st fin) (hw : LD.Wf)
    (he : (⟨te, ⟨[], skipActs st fin⟩, some fin, false⟩ : SBlk) ∈ LD.P.blks) {s s' : Mem} (hb : LF.Runs s st s' te) : LF.Moves LD s st s' fin := by
  intro m hm hv
  obtain ⟨m1, r1, o1, v1⟩ := hb m hm hv
  have hs := (h.in o1.prog).step_next he rfl rfl trivial (fun _ => h.acts hw _ _)
  simp only [SBlk.exec, condsS, if_true, skip_run] at hs
  refine ⟨_, r1.trans (Reaches.step hs.1), h.done hw o1.prog o1.mask (fun r hr _ _ => o1.rest r hr), ?_⟩
  rw [Layout.view_priv h.priv2, Layout.view_priv h.priv1, h.view, v1]

/-- `EUDExecuteOnce()(conditions)` (simpleblock.py:137-150): the conditions of all parts but the last, and the last part, whose join trigger
makes the block end. -/
structure CondOnce (LF LD : Layout) (st fin : Nat) (pre : Stmt) (cs1 cs2 : List PC) (body : Nat) where
  c : Nat
  tl : Nat
  tj : Nat
  r : Nat
  b : Nat
  k : Nat
  pre : Code LF r b k pre st c
  br : BranchAt LF tl fin c cs1 []
  len : cs2.length ≤ 16
  pc : PlacedC (tl + 8) cs2
  last : (⟨tl, ⟨cs2.map PC.c, [sNext tl tj]⟩, none, false⟩ : SBlk) ∈ LF.P.blks
  rest : (tl, fin) ∈ LF.rest
  rest' : (tl, fin) ∈ LD.rest
  join : (⟨tj, ⟨[], skipActs st fin ++ [sNext tl fin]⟩, some body, false⟩ : SBlk) ∈ LD.P.blks
  lt : tj < 2 ^ 32
  ne : tl + 4 ≠ st + 2376

/-- **C28 (conditions do not hold).** Then the body is skipped, and the block stays in the first phase. -/
theorem C28_not_yet {LF LD : Layout} {st fin body : Nat} {pre : Stmt} {cs1 cs2 : List PC} (hw : LF.Wf)
    (hC : CondOnce LF LD st fin pre cs1 cs2 body) {s s1 : Mem} (hp : Exec LF pre s .nrm s1) (hc : ∀ p ∈ cs1 ++ cs2, p.Ok LF s1)
    (hh : holdsAll s1 (cs1 ++ cs2) = false) : LF.Runs s st s1 fin := by
  have h1 : LF.Runs s st s1 hC.c := C25_structured hw hp hC.pre
  refine h1.trans ?_
  have hb := C24_branch hw hC.br (fun p hp => hc p (by simp [hp])) (fun _ => trivial)
  rw [holdsAll_append] at hh
  cases hg : holdsAll s1 cs1 with
  | false =>
    rw [hg] at hb
    simpa using hb
  | true =>
    rw [hg, if_pos rfl, if_pos rfl] at hb
    rw [hg, Bool.true_and] at hh
    refine hb.trans ?_
    obtain ⟨e1, e2⟩ := hC.pc.spec (L := LF) (s := s1)
    have := Layout.Moves.stay hw (d := []) (by simp) hC.last hC.rest (s := s1) (e2 (fun p hp => hc p (by simp [hp]))) (by rw [e1, hh])
    rw [Layout.redir_nil] at this
    exact this.runs

/-- **C28 (conditions hold).** The first time the conditions hold, control goes to the body, already in the second phase. -/
theorem C28_enter {LF LD : Layout} {st fin body : Nat} {pre : Stmt} {cs1 cs2 : List PC} (h : OncePair LF LD st fin) (hw : LF.Wf) (hwd : LD.Wf)
    (hC : CondOnce LF LD st fin pre cs1 cs2 body) {s s1 : Mem} (hp : Exec LF pre s .nrm s1) (hc : ∀ p ∈ cs1 ++ cs2, p.Ok LF s1)
    (hh : holdsAll s1 (cs1 ++ cs2) = true) : LF.Moves LD s st s1 body := by
  have h1 : LF.Runs s st s1 hC.c := C25_structured hw hp hC.pre
  refine h1.moves.trans ?_
  have hb := C24_branch hw hC.br (fun p hp => hc p (by simp [hp])) (fun _ => trivial)
  rw [holdsAll_append, Bool.and_eq_true] at hh
  rw [hh.1, if_pos rfl, if_pos rfl] at hb
  refine Layout.Moves.trans (hb : LF.Moves LF s1 hC.c s1 hC.tl) ?_
  obtain ⟨e1, e2⟩ := hC.pc.spec (L := LF) (s := s1)
  have hse := Layout.Moves.self hw (d := []) (by simp) hC.last hC.rest hC.lt (s := s1) (e2 (fun p hp => hc p (by simp [hp]))) (by rw [e1, hh.2]) trivial
  rw [Layout.redir_nil] at hse
  refine hse.trans ?_
  simp only [runS]
  intro m hm hv
  have dl := hwd.rdat _ hC.rest'
  have hs := (h.in (m := m) hm.prog).step_next hC.join rfl rfl trivial
    (fun _ => Prog.acts_append _ _ _ _ (h.acts hwd _ _) (Prog.acts_next dl trivial))
  simp only [SBlk.exec, condsS, if_true, runS_append, skip_run, runS, sNext_apply] at hs
  have hd := h.done hwd (m := m.set (hC.tl + 4) (BitVec.ofNat 32 fin)) (by
      exact hm.prog.congr (Prog.Same.set ((hw.rdat _ hC.rest).okw _ _)))
    (fun v hv => by
      rw [set_ne (Ne.symm (hw.rsep _ hC.rest v hv).1)]
      exact hm.mask v hv)
    (fun r hr _ _ => by
      by_cases e : r.1 = hC.tl
      · have := hw.rinj r hr _ hC.rest e
        subst this
        exact set_eq _ _ _
      · rw [set_ne (by omega)]
        have hb : (r.1 == hC.tl) = false := by simpa using e
        have := hm.rest _ (Layout.redir_mem' (d := [(hC.tl, hC.tj)]) hr)
        simpa [List.lookup_cons, hb] using this)
  -- the last write comes after the two others
  have heq : (((m.set (st + 4) (BitVec.ofNat 32 fin)).set (st + 2376) 8).set (hC.tl + 4) (BitVec.ofNat 32 fin))
      = (((m.set (hC.tl + 4) (BitVec.ofNat 32 fin)).set (st + 4) (BitVec.ofNat 32 fin)).set (st + 2376) 8) := by
    rw [set_comm (Ne.symm hC.ne)]
    congr 1
    by_cases e : hC.tl = st
    · rw [e]
    · rw [set_comm (by omega)]
  rw [heq] at hs
  refine ⟨_, Reaches.step hs.1, hd, ?_⟩
  rw [Layout.view_priv h.priv2, Layout.view_priv h.priv1, Layout.view_priv (Layout.Wf.privR hC.rest'), h.view, ← hv, Layout.redir_view]

/-! ## Triggers that are not preserved -/

/-- **C28 (plain trigger), first time.** A trigger with at most 16 conditions and 64 actions that is not preserved performs its actions if its
conditions hold, and is then disabled. -/
theorem C28_trigger_first {L : Layout} (hw : L.Wf) {t x : Nat} {cs : List PC} {as : List PA} (hb : (⟨t, ⟨cs.map PC.c, as.map PA.a⟩, some x, true⟩ : SBlk) ∈ L.P.blks)
    (pc : PlacedC (t + 8) cs) (pa : PlacedA (t + 328) as) (hr : (t + 2372, 8) ∈ L.rest) {s : Mem} (hc : ∀ p ∈ cs, p.Ok L s) (hh : holdsAll s cs = true)
    (ha : ActsOk L as s) : (L.redir [(t + 2372, 0)]).Moves L s t (runPA as s) x := by
  intro m hm hv
  have hw0 := hw.redir (d := [(t + 2372, 0)]) (by simp)
  have hbl := hm.prog.blks _ hb
  obtain ⟨e1, e2⟩ := pc.spec (L := L.redir [(t + 2372, 0)]) (s := s)
  obtain ⟨f1, f2⟩ := pa.spec (L := L.redir [(t + 2372, 0)]) (s := s)
  obtain ⟨c1, c2⟩ := Layout.cnds_run hw0.cp (cs.map PC.c) (t + 8) m (fun o ho' => by
    rw [Nat.add_assoc]; exact hw0.blk _ hb _ (by omega) (by have := hbl.cl; simp only at this; omega)) (by rw [hv]; exact e2 (fun p hp => (hc p hp).redir _))
  rw [hv, e1, hh] at c2
  obtain ⟨a1, a2, a3⟩ := Layout.acts_run hw0.cp (as.map PA.a) (t + 328) m hm (fun o ho' => by
    rw [Nat.add_assoc]; exact hw0.blk _ hb _ (by omega) (by have := hbl.al; simp only at this; omega)) (by rw [hv]; exact f2 (ha.redir _))
  have h0 : m (t + 2376) = 0 := by
    have := hm.rest _ (Layout.redir_mem' (d := [(t + 2372, 0)]) hr)
    simpa using this
  -- no action touches the flag dword
  have hsafe : ∀ (l : List SAct) (y : Nat) (m : Mem), (L.redir [(t + 2372, 0)]).Ok m → (∀ o, o < 32 * l.length → ¬ (L.redir [(t + 2372, 0)]).priv (y + o)) →
      (L.redir [(t + 2372, 0)]).Acts l y ((L.redir [(t + 2372, 0)]).view m) → SafeS (fun z => z = t + 2376) l y m := by
    intro l
    induction l with
    | nil => intros; trivial
    | cons a l ih =>
      intro y m hm hp hA
      have p0 := by simpa using hp 0 (by simp)
      have p16 := hp 16 (by simp; omega)
      have p20 := hp 20 (by simp; omega)
      have e := SAct.res_view (m := m) a p0 p16 p20
      obtain ⟨h1, h2, h3⟩ := hA
      rw [e] at h2 h3
      rw [Dst.addr_view hw0.cp] at h2
      have hap : (a.res m y).apply ((L.redir [(t + 2372, 0)]).view m) = (L.redir [(t + 2372, 0)]).view ((a.res m y).apply m) := by
        unfold Act.apply
        rw [Dst.addr_view hw0.cp, Layout.view_set h2.2, Layout.view_at h2.2]
      rw [hap] at h3
      refine ⟨?_, ?_, ih (y + 32) _ ?_ ?_ h3⟩
      · intro hd
        have := h1 hd
        rwa [Layout.view_at p16] at this
      · intro e'
        exact h2.2 (e' ▸ (Layout.redir_priv _ _ _).2 (Layout.Wf.privR hr))
      · unfold Act.apply
        exact hm.set h2 _
      · intro o ho
        have := hp (32 + o) (by simp; omega)
        rwa [← Nat.add_assoc] at this
  have hboth : ∀ (F G : Nat → Prop) (l : List SAct) (y : Nat) (m : Mem), SafeS F l y m → SafeS G l y m → SafeS (fun z => F z ∨ G z) l y m := by
    intro F G l
    induction l with
    | nil => intros; trivial
    | cons a l ih => exact fun y m ⟨h1, h2, h3⟩ ⟨_, g2, g3⟩ => ⟨h1, fun h => h.elim h2 g2, ih _ _ h3 g3⟩
  have hst := step_once hbl h0 ⟨c1, fun _ => hboth _ _ _ _ _ (a1.safe.1.mono (fun z hz => Or.inl ⟨_, hb, hz⟩))
    (hsafe _ _ m hm (fun o ho' => by
      rw [Nat.add_assoc]; exact hw0.blk _ hb _ (by omega) (by have := hbl.al; simp only at this ho'; omega)) (by rw [hv]; exact f2 (ha.redir _)))⟩
  simp only [c2, if_true, SBlk.exec] at hst
  have hnx := (a2.prog.blks _ hb).next x rfl
  rw [hnx.1, BitVec.toNat_ofNat, Nat.mod_eq_of_lt hnx.2] at hst
  refine ⟨_, Reaches.step hst, ?_, ?_⟩
  · have := a2.redir_set hw hr 8
    rwa [Layout.redir_same hw (d := [(t + 2372, 8), (t + 2372, 0)])] at this
    intro a y h
    by_cases e : a = t + 2372
    · subst e
      simp only [List.lookup_cons, beq_self_eq_true, Option.some.injEq] at h
      subst h
      exact hr
    · have e1 : (a == t + 2372) = false := by simpa using e
      simp only [List.lookup_cons, e1, List.lookup_nil] at h
      cases h
  · rw [Layout.view_priv (show L.priv (t + 2376) from Layout.Wf.privR hr), ← Layout.redir_view L [(t + 2372, 0)], a3, hv, f1]

/-- **C28 (plain trigger), conditions do not hold.** -/
theorem C28_trigger_not_yet {L : Layout} (hw : L.Wf) {t x : Nat} {cs : List PC} {as : List PA} (hb : (⟨t, ⟨cs.map PC.c, as.map PA.a⟩, some x, true⟩ : SBlk) ∈ L.P.blks)
    (pc : PlacedC (t + 8) cs) (hr : (t + 2372, 8) ∈ L.rest) {s : Mem} (hc : ∀ p ∈ cs, p.Ok L s) (hh : holdsAll s cs = false) :
    (L.redir [(t + 2372, 0)]).Runs s t s x := by
  intro m hm hv
  have hw0 := hw.redir (d := [(t + 2372, 0)]) (by simp)
  have hbl := hm.prog.blks _ hb
  obtain ⟨e1, e2⟩ := pc.spec (L := L.redir [(t + 2372, 0)]) (s := s)
  obtain ⟨c1, c2⟩ := Layout.cnds_run hw0.cp (cs.map PC.c) (t + 8) m (fun o ho' => by
    rw [Nat.add_assoc]; exact hw0.blk _ hb _ (by omega) (by have := hbl.cl; simp only at this; omega)) (by rw [hv]; exact e2 (fun p hp => (hc p hp).redir _))
  rw [hv, e1, hh] at c2
  have h0 : m (t + 2376) = 0 := by
    have := hm.rest _ (Layout.redir_mem' (d := [(t + 2372, 0)]) hr)
    simpa using this
  have hst := step_once hbl h0 ⟨c1, fun h => by rw [c2] at h; cases h⟩
  have hnx := hbl.next x rfl
  simp only [c2, Bool.false_eq_true, if_false] at hst
  rw [hnx.1, BitVec.toNat_ofNat, Nat.mod_eq_of_lt hnx.2] at hst
  exact ⟨m, Reaches.step hst, hm, hv⟩

/-- **C28 (plain trigger), afterwards.** -/
theorem C28_trigger_later {L : Layout} {t x : Nat} {T : STrig} (hb : (⟨t, T, some x, true⟩ : SBlk) ∈ L.P.blks) (hr : (t + 2372, 8) ∈ L.rest) (s : Mem) :
    L.Runs s t s x := by
  intro m hm hv
  have hnx := (hm.prog.blks _ hb).next x rfl
  exact ⟨m, Reaches.step (step_skip (hm.rest _ hr) hnx.1 hnx.2), hm, hv⟩

/-! ## Histories -/

/-- A piece of once-only code from `st` to `fin`: when the condition `C` holds for the first time it does `R` and enters its second phase; before that
it does `N` (nothing, except evaluating the condition), and in the second phase nothing. -/
structure OnceBlock (LF LD : Layout) (st fin : Nat) (C : Mem → Bool) (R N : Mem → Mem → Prop) : Prop where
  first : ∀ s s', C s = true → R s s' → LF.Moves LD s st s' fin
  notYet : ∀ s s', C s = false → N s s' → LF.Runs s st s' fin
  later : ∀ s, LD.Runs s st s fin

theorem C28_once_block {LF LD : Layout} {st fin te : Nat} (h : OncePair LF LD st fin) (hw : LD.Wf)
    (he : (⟨te, ⟨[], skipActs st fin⟩, some fin, false⟩ : SBlk) ∈ LD.P.blks) {R : Mem → Mem → Prop} (hb : ∀ s s', R s s' → LF.Runs s st s' te) :
    OnceBlock LF LD st fin (fun _ => true) R (fun _ _ => True) :=
  ⟨fun s s' _ g => C28_first h hw he (hb s s' g), fun _ _ g => by simp at g, fun s => C28_later h hw s⟩

theorem C28_conditional_block {LF LD : Layout} {st fin body : Nat} {cs1 cs2 : List PC} (h : OncePair LF LD st fin) (hw : LF.Wf) (hwd : LD.Wf)
    (hC : CondOnce LF LD st fin .skip cs1 cs2 body) (hc : ∀ s, ∀ p ∈ cs1 ++ cs2, p.Ok LF s) {R : Mem → Mem → Prop} (hb : ∀ s s', R s s' → LD.Runs s body s' fin) :
    OnceBlock LF LD st fin (fun s => holdsAll s (cs1 ++ cs2)) R (fun s s' => s' = s) :=
  ⟨fun s s' g1 g2 => (C28_enter h hw hwd hC (.skip s) (hc s) g1).trans (hb s s' g2),
    fun s _ g1 g2 => by cases g2; exact C28_not_yet hw hC (.skip s) (hc s) g1, fun s => C28_later h hwd s⟩

theorem C28_trigger_block {L : Layout} (hw : L.Wf) {t x : Nat} {cs : List PC} {as : List PA} (hb : (⟨t, ⟨cs.map PC.c, as.map PA.a⟩, some x, true⟩ : SBlk) ∈ L.P.blks)
    (pc : PlacedC (t + 8) cs) (pa : PlacedA (t + 328) as) (hr : (t + 2372, 8) ∈ L.rest) (hc : ∀ s, ∀ p ∈ cs, p.Ok L s) (ha : ∀ s, ActsOk L as s) :
    OnceBlock (L.redir [(t + 2372, 0)]) L t x (fun s => holdsAll s cs) (fun s s' => s' = runPA as s) (fun s s' => s' = s) :=
  ⟨fun s _ g1 g2 => by cases g2; exact C28_trigger_first hw hb pc pa hr (hc s) g1 (ha s),
    fun s _ g1 g2 => by cases g2; exact C28_trigger_not_yet hw hb pc hr (hc s) g1, fun s => C28_trigger_later hb hr s⟩

/-- A history of executions of the code, with other code in between, that leads from the end back to the start.  The list tells for each execution whether
the body was performed. -/
inductive OnceHist (LF LD : Layout) (st fin : Nat) (C : Mem → Bool) (R N : Mem → Mem → Prop) : Bool → Mem → List Bool → Bool → Mem → Prop
  | nil (d : Bool) (s : Mem) : OnceHist LF LD st fin C R N d s [] d s
  | first {s s1 s2 s3 : Mem} {l : List Bool} {d : Bool} (hc : C s = true) (hr : R s s1) (ho : LD.Runs s1 fin s2 st)
      (h : OnceHist LF LD st fin C R N true s2 l d s3) : OnceHist LF LD st fin C R N false s (true :: l) d s3
  | notYet {s s1 s2 s3 : Mem} {l : List Bool} {d : Bool} (hc : C s = false) (hn : N s s1) (ho : LF.Runs s1 fin s2 st)
      (h : OnceHist LF LD st fin C R N false s2 l d s3) : OnceHist LF LD st fin C R N false s (false :: l) d s3
  | later {s s2 s3 : Mem} {l : List Bool} {d : Bool} (ho : LD.Runs s fin s2 st)
      (h : OnceHist LF LD st fin C R N true s2 l d s3) : OnceHist LF LD st fin C R N true s (false :: l) d s3

/-- **C28.** Over any number of executions with anything happening in between, the body is performed at most once, namely at the first
execution at which the condition holds, and the machine follows this history. -/
theorem C28_history {LF LD : Layout} {st fin : Nat} {C : Mem → Bool} {R N : Mem → Mem → Prop} (hB : OnceBlock LF LD st fin C R N) {d d' : Bool} {s s' : Mem}
    {l : List Bool} (h : OnceHist LF LD st fin C R N d s l d' s') :
    (if d then LD else LF).Moves (if d' then LD else LF) s st s' st ∧ l.count true + d.toNat = d'.toNat := by
  induction h with
  | nil d s => exact ⟨Layout.Runs.refl _ _ _, by simp⟩
  | first hc hr ho h ih =>
    refine ⟨(hB.first _ _ hc hr).trans (Layout.Moves.trans ho ih.1), ?_⟩
    have := ih.2
    simp at this ⊢
    exact this
  | notYet hc hn ho h ih =>
    refine ⟨Layout.Moves.trans (hB.notYet _ _ hc hn) (Layout.Moves.trans ho ih.1), ?_⟩
    have := ih.2
    simpa using this
  | later ho h ih =>
    refine ⟨Layout.Moves.trans (hB.later _) (Layout.Moves.trans ho ih.1), ?_⟩
    have := ih.2
    simpa using this

/-- The body is never performed twice. -/
theorem C28_at_most_once {LF LD : Layout} {st fin : Nat} {C : Mem → Bool} {R N : Mem → Mem → Prop} (hB : OnceBlock LF LD st fin C R N) {d' : Bool} {s s' : Mem}
    {l : List Bool} (h : OnceHist LF LD st fin C R N false s l d' s') : l.count true ≤ 1 := by
  have := (C28_history hB h).2
  have := Bool.toNat_le d'
  simp at *
  omega

end Eud.SC
