import Verif.Machine.Sym
/-
Programs made of triggers with holes, `SeqCompute` blocks and variables, and the rules to run them:
one rule per kind of trigger, each of which keeps the program intact.
-/

namespace Eud.SC

/-- `blks`: triggers (with holes); `seqs`: triggers emitted by `SeqCompute`; `vars`: variables. -/
structure Prog where
  blks : List SBlk
  seqs : List Blk
  vars : List Nat

/-- The fixed dwords of a program. -/
def Prog.foot (P : Prog) (x : Nat) : Prop :=
  (∃ b ∈ P.blks, b.foot x) ∨ progFoot P.seqs x ∨ ∃ v ∈ P.vars, varStatic v x

/-- The program is in memory. -/
structure Prog.In (P : Prog) (m : Mem) : Prop where
  blks : ∀ b ∈ P.blks, SBlkAt m b
  seqs : Loaded m P.seqs
  vars : ∀ v ∈ P.vars, VarAt m v

/-- Writing `new` over `old` at `x` leaves the program intact. -/
def Prog.okw (P : Prog) (x : Nat) (old new : W) : Prop :=
  ¬ P.foot x ∧ ∀ v ∈ P.vars, x = v + 352 → new.extractLsb' 0 24 = old.extractLsb' 0 24

/-- A dword that may be written freely. -/
def Prog.data (P : Prog) (x : Nat) : Prop := ¬ P.foot x ∧ ∀ v ∈ P.vars, x ≠ v + 352

theorem Prog.data.okw {P : Prog} {x : Nat} (h : P.data x) (old new : W) : P.okw x old new :=
  ⟨h.1, fun v hv he => absurd he (h.2 v hv)⟩

/-- `m'` differs from `m` only where the program allows it. -/
structure Prog.Same (P : Prog) (m m' : Mem) : Prop where
  foot : ∀ x, P.foot x → m' x = m x
  typ : ∀ v ∈ P.vars, (m' (v + 352)).extractLsb' 0 24 = (m (v + 352)).extractLsb' 0 24

theorem Prog.Same.refl (P : Prog) (m : Mem) : P.Same m m := ⟨fun _ _ => rfl, fun _ _ => rfl⟩

theorem Prog.Same.trans {P : Prog} {a b c : Mem} (h : P.Same a b) (g : P.Same b c) : P.Same a c :=
  ⟨fun x hx => (g.foot x hx).trans (h.foot x hx), fun v hv => (g.typ v hv).trans (h.typ v hv)⟩

theorem Prog.Same.set {P : Prog} {m : Mem} {x : Nat} {w : W} (h : P.okw x (m x) w) :
    P.Same m (m.set x w) := by
  refine ⟨fun y hy => set_ne (fun he => h.1 (he ▸ hy)), fun v hv => ?_⟩
  by_cases he : v + 352 = x
  · rw [he, set_eq]; exact h.2 v hv he.symm
  · rw [set_ne he]

theorem Prog.In.congr {P : Prog} {m m' : Mem} (h : P.In m) (hs : P.Same m m') : P.In m' :=
  ⟨fun b hb => (h.blks b hb).congr (fun x hx => hs.foot x (Or.inl ⟨b, hb, hx⟩)),
    h.seqs.congr (fun x hx => hs.foot x (Or.inr (Or.inl hx))),
    fun v hv => (h.vars v hv).congr (fun x hx => hs.foot x (Or.inr (Or.inr ⟨v, hv, hx⟩)))
      (hs.typ v hv)⟩

/-! ## Triggers with holes -/

/-- All actions leave the program intact. -/
def Prog.Acts (P : Prog) : List SAct → Nat → Mem → Prop
  | [], _, _ => True
  | s :: ss, x, m => s.Ready m x ∧
      P.okw ((s.res m x).dst.addr m) (m ((s.res m x).dst.addr m))
        (((s.res m x).apply m) ((s.res m x).dst.addr m)) ∧
      P.Acts ss (x + 32) ((s.res m x).apply m)

theorem Prog.Acts.safe {P : Prog} : ∀ {ss : List SAct} {x : Nat} {m : Mem}, P.Acts ss x m →
    SafeS P.foot ss x m ∧ P.Same m (runS ss x m)
  | [], _, _, _ => ⟨trivial, Prog.Same.refl _ _⟩
  | s :: ss, x, m, ⟨h1, h2, h3⟩ => by
    obtain ⟨i1, i2⟩ := Prog.Acts.safe h3
    refine ⟨⟨h1, h2.1, i1⟩, ?_⟩
    refine Prog.Same.trans ?_ i2
    unfold Act.apply at h2 ⊢
    rw [set_eq] at h2
    exact Prog.Same.set h2

/-- A step through a preserved trigger. -/
theorem Prog.In.step {P : Prog} {m : Mem} (h : P.In m) {b : SBlk} (hb : b ∈ P.blks) (ho : b.once = false)
    (hr : readyS m b.T.conds (b.t + 8))
    (ha : condsS m b.T.conds (b.t + 8) = true → P.Acts b.T.acts (b.t + 328) m) :
    Eud.SC.step ⟨m, b.t⟩ = some ⟨b.exec m, (b.exec m (b.t + 4)).toNat⟩ ∧ P.In (b.exec m) := by
  have hsafe : b.Safe P.foot m := ⟨hr, fun hc => (ha hc).safe.1⟩
  have hs2 : b.Safe b.foot m :=
    ⟨hr, fun hc => (ha hc).safe.1.mono (fun x hx => Or.inl ⟨b, hb, hx⟩)⟩
  refine ⟨step_sym (h.blks b hb) ho hs2, h.congr ?_⟩
  unfold SBlk.exec
  split
  · exact (ha ‹_›).safe.2
  · exact Prog.Same.refl _ _

/-- A step through a preserved trigger with a fixed `nextptr`. -/
theorem Prog.In.step_next {P : Prog} {m : Mem} (h : P.In m) {b : SBlk} (hb : b ∈ P.blks)
    (ho : b.once = false) {n : Nat} (hn : b.next = some n)
    (hr : readyS m b.T.conds (b.t + 8))
    (ha : condsS m b.T.conds (b.t + 8) = true → P.Acts b.T.acts (b.t + 328) m) :
    Eud.SC.step ⟨m, b.t⟩ = some ⟨b.exec m, n⟩ ∧ P.In (b.exec m) := by
  obtain ⟨h1, h2⟩ := h.step hb ho hr ha
  refine ⟨?_, h2⟩
  rw [h1]
  have := (h2.blks b hb).next n hn
  rw [this.1, BitVec.toNat_ofNat, Nat.mod_eq_of_lt this.2]

/-! ## Variables -/

/-- A step through a variable whose destination is the address `a`. -/
theorem Prog.In.step_var {P : Prog} {m : Mem} (h : P.In m) {v : Nat} (hv : v ∈ P.vars) {md : Mod} {a n : Nat}
    (hmd : varMod m v = some md) (hd : m (v + 344) = epd a) (he : EpdOK a) (hn : m (v + 4) = BitVec.ofNat 32 n)
    (hlt : n < 2 ^ 32) (ha : P.okw a (m a) (modify md (m a) (m (v + 348)) (m (v + 328)))) (h4 : a ≠ v + 4) :
    Eud.SC.step ⟨m, v⟩ = some ⟨m.set a (modify md (m a) (m (v + 348)) (m (v + 328))), n⟩ ∧
      P.In (m.set a (modify md (m a) (m (v + 348)) (m (v + 328)))) := by
  have hdst : varDst m v = some (.mem a) := by
    unfold varDst; rw [hd]; exact dstOf_epd he
  have hf : ∀ x, varStatic v x → x ≠ a := fun x hx hxa => ha.1 (hxa ▸ Or.inr (Or.inr ⟨v, hv, hx⟩))
  refine ⟨?_, h.congr (Prog.Same.set ha)⟩
  rw [Eud.SC.step_var (h.vars v hv) hmd hdst
    ⟨fun e => hf (v + 384) (Or.inr (Or.inr (Or.inl rfl))) e.symm,
      fun e => hf (v + 2376) (Or.inr (Or.inr (Or.inr rfl))) e.symm⟩]
  simp only [varAct, Act.apply, Dst.addr]
  rw [set_ne (Ne.symm h4), hn, BitVec.toNat_ofNat, Nat.mod_eq_of_lt hlt]

/-! ## Static layout of variables -/

/-- Variables do not clash with each other, the rest of the program, or the current player cell. -/
structure Prog.Wf (P : Prog) : Prop where
  sep : ∀ v ∈ P.vars, ∀ w ∈ P.vars, VSep v w
  epd : ∀ v ∈ P.vars, EpdOK (v + 348)
  code : ∀ v ∈ P.vars, ∀ o ∈ [4, 328, 344, 348, 352],
    ¬ ((∃ b ∈ P.blks, b.foot (v + o)) ∨ progFoot P.seqs (v + o))
  cp : ∀ v ∈ P.vars, cpAddr ≠ v + 344 ∧ cpAddr ≠ v + 352 ∧ cpAddr ≠ v + 4

theorem Prog.Wf.foot {P : Prog} (h : P.Wf) {v : Nat} (hv : v ∈ P.vars) {o : Nat}
    (ho : o ∈ [4, 328, 344, 348, 352]) : ¬ P.foot (v + o) := by
  have hc := h.code v hv o ho
  rintro (h1 | h1 | ⟨w, hw, h1⟩)
  · exact hc (Or.inl h1)
  · exact hc (Or.inr h1)
  · have hs := h.sep v hv w hw
    simp only [List.mem_cons, List.not_mem_nil, or_false] at ho
    obtain ⟨o4, o20, o328, o344, o348, o352, o356, o384, o2376⟩ := offs_mem
    have : o ∈ varOffs := by rcases ho with rfl | rfl | rfl | rfl | rfl <;> assumption
    rcases h1 with h1 | h1 | h1 | h1
    · exact hs o this 20 o20 (by omega) h1
    · exact hs o this 356 o356 (by omega) h1
    · exact hs o this 384 o384 (by omega) h1
    · exact hs o this 2376 o2376 (by omega) h1

theorem Prog.Wf.data {P : Prog} (h : P.Wf) {v : Nat} (hv : v ∈ P.vars) {o : Nat}
    (ho : o ∈ [4, 328, 344, 348]) : P.data (v + o) := by
  refine ⟨h.foot hv (by simp only [List.mem_cons] at ho ⊢; grind), fun w hw => ?_⟩
  obtain ⟨o4, o20, o328, o344, o348, o352, o356, o384, o2376⟩ := offs_mem
  simp only [List.mem_cons, List.not_mem_nil, or_false] at ho
  have : o ∈ varOffs := by rcases ho with rfl | rfl | rfl | rfl <;> assumption
  exact h.sep v hv w hw o this 352 o352 (by omega)

/-- Setting the modifier of a variable leaves the program intact. -/
theorem Prog.Wf.okw_mod {P : Prog} (h : P.Wf) {v : Nat} (hv : v ∈ P.vars) (old : W) (md : Mod) :
    P.okw (v + 352) old (modify .set old (md.code.setWidth 32 <<< 24) 0xFF000000) :=
  ⟨h.foot hv (by simp), fun _ _ _ => (setModifier_word old md).2⟩

/-! ## `SeqCompute` on addresses -/

/-- `*a md= src`: the destination object `d` denotes the address `a`. -/
structure GA where
  d : DRef
  a : Nat
  md : Mod
  src : Src

def GA.pair (g : GA) : Pair := ⟨some g.d, some g.md, g.src⟩

/-- The destination object evaluates to the EPD of the address and is not falsy. -/
structure GA.OK (E : Env) (g : GA) : Prop where
  epd : g.d.epd E = epd g.a
  ok : EpdOK g.a
  truthy : g.d.truthy E = true

def Src.valM (m : Mem) : Src → W
  | .const w => w
  | .var v => m (v + 348)

/-- The assignments, one after the other. -/
def runG : List GA → Mem → Mem
  | [], m => m
  | g :: gs, m => runG gs (m.set g.a (arith g.md (m g.a) (g.src.valM m)))

def gsrcs : List GA → List Nat
  | [] => []
  | g :: gs => match g.src with | .var v => v :: gsrcs gs | .const _ => gsrcs gs

theorem srcVars_pairs : ∀ gs : List GA, srcVars (gs.map GA.pair) = gsrcs gs
  | [] => rfl
  | g :: gs => by
    simp only [List.map_cons, srcVars, gsrcs, srcVars_pairs gs]
    rfl

/-- Dwords of sources that `SeqCompute` changes on the side. -/
def ctlOf (S : List Nat) (x : Nat) : Prop := ∃ v ∈ S, x = v + 4 ∨ x = v + 344 ∨ x = v + 352

theorem runG_congr : ∀ (gs : List GA) (S : List Nat) (m m' : Mem), (∀ x, ¬ ctlOf S x → m' x = m x) →
    (∀ g ∈ gs, ¬ ctlOf S g.a ∧ ∀ v, g.src = .var v → ¬ ctlOf S (v + 348)) →
    ∀ x, ¬ ctlOf S x → runG gs m' x = runG gs m x
  | [], _, _, _, h, _, x, hx => h x hx
  | g :: gs, S, m, m', h, hg, x, hx => by
    simp only [runG]
    apply runG_congr gs S _ _ _ (fun g hg' => hg g (by simp [hg'])) x hx
    intro y hy
    have h1 := hg g (by simp)
    have hv : g.src.valM m' = g.src.valM m := by
      cases hs : g.src with
      | const w => rfl
      | var v => exact h _ (h1.2 v hs)
    unfold Mem.set
    rw [hv, h _ h1.1, h y hy]

theorem specRun_G {E : Env} {S : List Nat} (hsep : ∀ v ∈ S, ∀ w ∈ S, VSep v w) :
    ∀ (gs : List GA) (m : Mem), (∀ g ∈ gs, g.OK E) → (∀ v ∈ gsrcs gs, v ∈ S) →
    (∀ g ∈ gs, ¬ ctlOf S g.a ∧ ∀ v ∈ S, g.a ≠ v + 328) →
    (∀ v ∈ S, m (v + 328) = 0xFFFFFFFF) →
    ∃ ms tg, specRun E (gs.map GA.pair) m = some (ms, tg) ∧ (∀ x ∈ tg, ∃ g ∈ gs, x = g.a) ∧
      (∀ x, ¬ ctlOf S x → ms x = runG gs m x)
  | [], m, _, _, _, _ => ⟨m, [], rfl, by simp, fun _ _ => rfl⟩
  | g :: gs, m, hok, hS, hta, hmask => by
    obtain ⟨o4, o20, o328, o344, o348, o352, o356, o384, o2376⟩ := offs_mem
    have hg := hok g (by simp)
    have ht := hta g (by simp)
    have hfirst : ∃ m1, specPair E g.pair m = some (m1, g.a) ∧
        (∀ x, ¬ ctlOf S x → m1 x = m.set g.a (arith g.md (m g.a) (g.src.valM m)) x) := by
      cases hsrc : g.src with
      | const w =>
        refine ⟨m.set g.a (arith g.md (m g.a) w), ?_, fun _ _ => rfl⟩
        simp only [GA.pair, specPair, hsrc, hg.epd, dstOf_epd hg.ok, Option.map_some, Dst.addr]
      | var v =>
        have hvS : v ∈ S := hS v (by simp [gsrcs, hsrc])
        let m0 := ctl E (some g.d) (some g.md) v m
        have e1 : varMod m0 v = some g.md := by
          unfold varMod
          rw [show m0 (v + 352) = _ from ctl_mod]
          simp only
          rw [(setModifier_word _ _).1, ofCode_code]
        have e2 : varDst m0 v = some (.mem g.a) := by
          unfold varDst
          rw [show m0 (v + 344) = _ from ctl_dest]
          simp only [hg.epd]
          exact dstOf_epd hg.ok
        have hc : ∀ x, ¬ ctlOf S x → m0 x = m x := by
          intro x hx
          apply ctl_other
          · exact fun e => hx ⟨v, hvS, Or.inr (Or.inl e)⟩
          · exact fun e => hx ⟨v, hvS, Or.inr (Or.inr e)⟩
        refine ⟨m0.set g.a (arith g.md (m g.a) (m (v + 348))), ?_, ?_⟩
        · simp only [GA.pair, specPair, hsrc]
          show (match varMod m0 v, varDst m0 v with
            | some md, some x => some (m0.set (x.addr m0) (modify md (m0 (x.addr m0)) (m0 (v + 348)) (m0 (v + 328))), x.addr m0)
            | _, _ => none) = _
          simp only [e1, e2, Dst.addr]
          have q1 : m0 (v + 348) = m (v + 348) := ctl_other (by omega) (by omega)
          have q2 : m0 (v + 328) = 0xFFFFFFFF := by
            rw [← hmask v hvS]; exact ctl_other (by omega) (by omega)
          rw [q1, q2, modify_full, hc _ ht.1]
        · intro x hx
          unfold Mem.set
          rw [hc x hx]; rfl
    obtain ⟨m1, h1, h2⟩ := hfirst
    have hmask1 : ∀ v ∈ S, m1 (v + 328) = 0xFFFFFFFF := by
      intro v hv
      rw [h2, set_ne (fun e => ht.2 v hv e.symm)]
      · exact hmask v hv
      · rintro ⟨w, hw, e | e | e⟩
        · exact hsep v hv w hw 328 o328 4 o4 (by omega) e
        · exact hsep v hv w hw 328 o328 344 o344 (by omega) e
        · exact hsep v hv w hw 328 o328 352 o352 (by omega) e
    have hS' : ∀ v ∈ gsrcs gs, v ∈ S := by
      intro v hv
      apply hS
      simp only [gsrcs]
      split
      · exact List.mem_cons_of_mem _ hv
      · exact hv
    obtain ⟨ms, tg, i1, i2, i3⟩ := specRun_G (E := E) hsep gs m1 (fun g' h' => hok g' (by simp [h'])) hS'
      (fun g' h' => hta g' (by simp [h'])) hmask1
    refine ⟨ms, g.a :: tg, ?_, ?_, ?_⟩
    · simp only [List.map_cons, specRun, h1, i1, bind, Option.bind_some]
    · intro x hx
      simp only [List.mem_cons] at hx
      rcases hx with rfl | hx
      · exact ⟨g, by simp, rfl⟩
      · obtain ⟨g', hg', e⟩ := i2 x hx
        exact ⟨g', by simp [hg'], e⟩
    · intro x hx
      rw [i3 x hx]
      simp only [runG]
      apply runG_congr gs S _ _ h2 _ x hx
      intro g' hg'
      refine ⟨(hta g' (by simp [hg'])).1, fun v hv => ?_⟩
      have hvS : v ∈ S := hS' v (by
        clear hok hS hta i2 i1 i3 hS' h1 h2 ht hg hx hmask1
        induction gs with
        | nil => simp at hg'
        | cons a as ih =>
          simp only [gsrcs]
          simp only [List.mem_cons] at hg'
          rcases hg' with rfl | hg'
          · simp [hv]
          · split
            · exact List.mem_cons_of_mem _ (ih hg')
            · exact ih hg')
      rintro ⟨w, hw, e | e | e⟩
      · exact hsep v hvS w hw 348 o348 4 o4 (by omega) e
      · exact hsep v hvS w hw 348 o348 344 o344 (by omega) e
      · exact hsep v hvS w hw 348 o348 352 o352 (by omega) e

theorem SrcsOK_of {P : Prog} {m : Mem} (h : P.In m) (hw : P.Wf) {Q : List Blk} (hQ : ∀ b ∈ Q, b ∈ P.seqs)
    {S : List Nat} (hS : ∀ v ∈ S, v ∈ P.vars) : SrcsOK m S (progFoot Q) := by
  have hf : ∀ x, progFoot Q x → progFoot P.seqs x := fun x ⟨b, hb, hx⟩ => ⟨b, hQ b hb, hx⟩
  refine ⟨fun v hv => h.vars v (hS v hv), fun v hv w hw' => hw.sep v (hS v hv) w (hS w hw'), ?_, ?_,
    fun v hv => hw.cp v (hS v hv)⟩
  · intro v hv
    have := (hw.epd v (hS v hv)).2.1
    omega
  · intro v hv
    have hc := hw.code v (hS v hv)
    exact ⟨fun hx => hc 4 (by simp) (Or.inr (hf _ hx)), fun hx => hc 344 (by simp) (Or.inr (hf _ hx)),
      fun hx => hc 352 (by simp) (Or.inr (hf _ hx))⟩

/-- **Running a `SeqCompute` block** inside a program: the assignments are performed in order; on the
side, only the next pointers, destinations and modifiers of the source variables change. -/
theorem Prog.In.seq {P : Prog} {m : Mem} (h : P.In m) (hw : P.Wf) {E : Env} {ts : Nat → Nat} {gs : List GA}
    {Q : List Blk} (hem : seqCompute E ts (gs.map GA.pair) = some Q) (hQ : ∀ b ∈ Q, b ∈ P.seqs)
    (hts : ∀ k ≤ Q.length, ts k < 2 ^ 32) (hS : ∀ v ∈ gsrcs gs, v ∈ P.vars)
    (hok : ∀ g ∈ gs, g.OK E) (hmask : ∀ v ∈ gsrcs gs, m (v + 328) = 0xFFFFFFFF)
    (hdat : ∀ g ∈ gs, P.data g.a)
    (hta : ∀ g ∈ gs, ∀ v ∈ gsrcs gs, g.a ≠ v + 4 ∧ g.a ≠ v + 328 ∧ g.a ≠ v + 344) :
    ∃ m', Reaches ⟨m, ts 0⟩ ⟨m', ts Q.length⟩ ∧ P.In m' ∧
      (∀ x, ¬ ctlOf (gsrcs gs) x → m' x = runG gs m x) := by
  have hsep : ∀ v ∈ gsrcs gs, ∀ w ∈ gsrcs gs, VSep v w := fun v hv w hw' => hw.sep v (hS v hv) w (hS w hw')
  have htc : ∀ g ∈ gs, ¬ ctlOf (gsrcs gs) g.a ∧ ∀ v ∈ gsrcs gs, g.a ≠ v + 328 := by
    intro g hg
    refine ⟨?_, fun v hv => (hta g hg v hv).2.1⟩
    rintro ⟨v, hv, e | e | e⟩
    · exact (hta g hg v hv).1 e
    · exact (hta g hg v hv).2.2 e
    · exact (hdat g hg).2 v (hS v hv) e
  obtain ⟨ms, tg, h1, h2, h3⟩ := specRun_G (E := E) hsep gs m hok (fun _ h => h) htc hmask
  have hsv := srcVars_pairs gs
  have hsrc : SrcsOK m (srcVars (gs.map GA.pair)) (progFoot Q) := by
    rw [hsv]; exact SrcsOK_of h hw hQ hS
  have hLQ : Loaded m Q := fun b hb => h.seqs b (hQ b hb)
  obtain ⟨m', r, e, l, o⟩ := C19_seqcompute_partial hem hts hLQ hsrc (by
      intro p hp v hpv d hd
      obtain ⟨g, hg, rfl⟩ := List.mem_map.1 hp
      simp only [GA.pair, Option.some.injEq] at hd
      subst hd
      exact (hok g hg).truthy) h1 (by
      intro x hx
      obtain ⟨g, hg, rfl⟩ := h2 x hx
      refine ⟨fun hq => (hdat g hg).1 ?_, ?_⟩
      · obtain ⟨b, hb, hbx⟩ := hq
        exact Or.inr (Or.inl ⟨b, hQ b hb, hbx⟩)
      · rw [hsv]
        rintro ⟨v, hv, hor⟩
        have hstat : ¬ varStatic v g.a := fun hs => (hdat g hg).1 (Or.inr (Or.inr ⟨v, hS v hv, hs⟩))
        rcases hor with h | h | h | h | h | h | h
        · exact (hta g hg v hv).1 h
        · exact hstat (Or.inl h)
        · exact (hta g hg v hv).2.2 h
        · exact (hdat g hg).2 v (hS v hv) h
        · exact hstat (Or.inr (Or.inl h))
        · exact hstat (Or.inr (Or.inr (Or.inl h)))
        · exact hstat (Or.inr (Or.inr (Or.inr h))))
  rw [hsv] at e o
  have hval : ∀ x, ¬ ctlOf (gsrcs gs) x → m' x = runG gs m x := by
    intro x hx
    rw [e x (fun ⟨v, hv, he⟩ => hx ⟨v, hv, Or.inl he⟩), h3 x hx]
  -- nothing but targets changes in runG
  have hrun : ∀ (gs' : List GA) (m0 : Mem) x, (∀ g ∈ gs', x ≠ g.a) → runG gs' m0 x = m0 x := by
    intro gs'
    induction gs' with
    | nil => intro _ _ _; rfl
    | cons g gs' ih =>
      intro m0 x hx
      simp only [runG]
      rw [ih _ _ (fun g' hg' => hx g' (by simp [hg'])), set_ne (hx g (by simp))]
  refine ⟨m', r, h.congr ⟨?_, ?_⟩, hval⟩
  · intro x hx
    rw [hval, hrun]
    · exact fun g hg he => (hdat g hg).1 (he ▸ hx)
    · rintro ⟨v, hv, e | e | e⟩
      · exact hw.foot (hS v hv) (o := 4) (by simp) (e ▸ hx)
      · exact hw.foot (hS v hv) (o := 344) (by simp) (e ▸ hx)
      · exact hw.foot (hS v hv) (o := 352) (by simp) (e ▸ hx)
  · intro v hv
    by_cases hvs : v ∈ gsrcs gs
    · rw [(o.var v hvs).typ, (h.vars v hv).typ]
    · rw [hval, hrun]
      · exact fun g hg he => (hdat g hg).2 v hv he.symm
      · rintro ⟨w, hw', e⟩
        obtain ⟨o4, o20, o328, o344, o348, o352, o356, o384, o2376⟩ := offs_mem
        rcases e with e | e | e
        · exact hw.sep v hv w (hS w hw') 352 o352 4 o4 (by omega) e
        · exact hw.sep v hv w (hS w hw') 352 o352 344 o344 (by omega) e
        · have : v = w := by omega
          exact hvs (this ▸ hw')

/-! ## A memory for examples -/

/-- Lists fit and destinations can be expressed. -/
structure SBlk.Valid (b : SBlk) : Prop where
  cl : b.T.conds.length ≤ 16
  al : b.T.acts.length ≤ 64
  c : ∀ c ∈ b.T.conds, c.Valid
  a : ∀ a ∈ b.T.acts, a.Valid
  n : ∀ n, b.next = some n → n < 2 ^ 32

/-- Fixed dword at an offset of a trigger, `none` where nothing is fixed. -/
def SBlk.wordAt (b : SBlk) (o : Nat) : Option W :=
  if o = 4 then b.next.map (BitVec.ofNat 32)
  else if 8 ≤ o ∧ o < 328 then
    match b.T.conds[(o - 8) / 20]? with
    | some c => c.word ((o - 8) % 20 / 4)
    | none => some 0
  else if 328 ≤ o ∧ o < 2376 then
    match b.T.acts[(o - 328) / 32]? with
    | some a => a.word ((o - 328) % 32 / 4)
    | none => some 0
  else if o = 2376 then (if b.once then none else some 4) else none

/-- A memory with the given triggers in it, `m0` elsewhere and in the holes. -/
def simage (m0 : Mem) : List SBlk → Mem
  | [] => m0
  | b :: P => fun x =>
    if b.t ≤ x ∧ x < b.t + 2408 then (b.wordAt (x - b.t)).getD (m0 x) else simage m0 P x

theorem simage_outside {m0 : Mem} : ∀ {P : List SBlk} {x : Nat},
    (∀ b ∈ P, x < b.t ∨ b.t + 2408 ≤ x) → simage m0 P x = m0 x
  | [], _, _ => rfl
  | b :: P, x, h => by
    have := h b (by simp)
    simp only [simage]
    rw [if_neg (by omega)]
    exact simage_outside (fun c hc => h c (by simp [hc]))

theorem simage_inside {m0 : Mem} : ∀ {P : List SBlk},
    P.Pairwise (fun b c => b.t + 2408 ≤ c.t ∨ c.t + 2408 ≤ b.t) → ∀ b ∈ P, ∀ o < 2408,
    simage m0 P (b.t + o) = (b.wordAt o).getD (m0 (b.t + o))
  | [], _, _, hb, _, _ => by simp at hb
  | c :: P, hp, b, hb, o, ho => by
    rw [List.pairwise_cons] at hp
    simp only [List.mem_cons] at hb
    simp only [simage]
    rcases hb with rfl | hb
    · rw [if_pos (by omega), show b.t + o - b.t = o by omega]
    · have := hp.1 b hb
      rw [if_neg (by omega)]
      exact simage_inside hp.2 b hb o ho

theorem simage_at {m0 : Mem} {P : List SBlk} (hv : ∀ b ∈ P, b.Valid)
    (hp : P.Pairwise (fun b c => b.t + 2408 ≤ c.t ∨ c.t + 2408 ≤ b.t)) :
    ∀ b ∈ P, SBlkAt (simage m0 P) b := by
  intro b hb
  have hi := simage_inside (m0 := m0) hp b hb
  have hcl := (hv b hb).cl
  have hal := (hv b hb).al
  refine ⟨hcl, hal, ?_, ?_, ?_, ?_, ?_, ?_⟩
  · intro i h
    refine ⟨(hv b hb).c _ (List.getElem_mem h), fun j hj w hw => ?_⟩
    rw [show b.t + 8 + 20 * i + 4 * j = b.t + (8 + 20 * i + 4 * j) by omega, hi _ (by omega)]
    unfold SBlk.wordAt
    rw [if_neg (by omega), if_pos (by omega), show (8 + 20 * i + 4 * j - 8) / 20 = i by omega,
      show (8 + 20 * i + 4 * j - 8) % 20 / 4 = j by omega, List.getElem?_eq_getElem h]
    simp only [hw, Option.getD_some]
  · intro h
    rw [show b.t + 8 + 20 * b.T.conds.length + 12 = b.t + (8 + 20 * b.T.conds.length + 12) by omega,
      hi _ (by omega)]
    unfold SBlk.wordAt
    rw [if_neg (by omega), if_pos (by omega),
      show (8 + 20 * b.T.conds.length + 12 - 8) / 20 = b.T.conds.length by omega,
      List.getElem?_eq_none (by omega)]
    rfl
  · intro i h
    refine ⟨(hv b hb).a _ (List.getElem_mem h), fun j hj w hw => ?_⟩
    rw [show b.t + 328 + 32 * i + 4 * j = b.t + (328 + 32 * i + 4 * j) by omega, hi _ (by omega)]
    unfold SBlk.wordAt
    rw [if_neg (by omega), if_neg (by omega), if_pos (by omega),
      show (328 + 32 * i + 4 * j - 328) / 32 = i by omega,
      show (328 + 32 * i + 4 * j - 328) % 32 / 4 = j by omega, List.getElem?_eq_getElem h]
    simp only [hw, Option.getD_some]
  · intro h
    rw [show b.t + 328 + 32 * b.T.acts.length + 24 = b.t + (328 + 32 * b.T.acts.length + 24) by omega,
      hi _ (by omega)]
    unfold SBlk.wordAt
    rw [if_neg (by omega), if_neg (by omega), if_pos (by omega),
      show (328 + 32 * b.T.acts.length + 24 - 328) / 32 = b.T.acts.length by omega,
      List.getElem?_eq_none (by omega)]
    rfl
  · intro h
    rw [hi 2376 (by omega)]
    simp [SBlk.wordAt, h]
  · intro n h
    rw [hi 4 (by omega)]
    simp [SBlk.wordAt, h, (hv b hb).n n h]

theorem SBlk.foot_range {b : SBlk} (hcl : b.T.conds.length ≤ 16) (hal : b.T.acts.length ≤ 64) {x : Nat}
    (h : b.foot x) : b.t ≤ x ∧ x < b.t + 2408 := by
  rcases h with ⟨i, hi, j, hj, -, rfl⟩ | ⟨hl, rfl⟩ | ⟨i, hi, j, hj, -, rfl⟩ | ⟨hl, rfl⟩ | ⟨-, rfl⟩ | ⟨-, rfl⟩
    <;> omega

theorem progFoot_range {Q : List Blk} {x : Nat} (h : progFoot Q x) : ∃ b ∈ Q, b.t ≤ x ∧ x < b.t + 2408 := by
  obtain ⟨b, hb, hx⟩ := h
  refine ⟨b, hb, ?_⟩
  simp only [Blk.foot, Trig.foot, CodeFoot] at hx
  omega

/-- A program laid out in memory: a variable buffer at `p`, then `SeqCompute` triggers, then the
others, all at different places. -/
structure Prog.Laid (P : Prog) (p : Nat) (vals : List W) : Prop where
  vars : P.vars = (List.range vals.length).map (fun i => p - 4 + 72 * i)
  p4 : 4 ≤ p
  al : p % 4 = 0
  lo : cpAddr < p
  hi : p + 2404 + 72 * vals.length < 2 ^ 32
  bv : ∀ b ∈ P.blks, b.Valid
  sv : ∀ b ∈ P.seqs, b.Valid
  bp : P.blks.Pairwise (fun b c => b.t + 2408 ≤ c.t ∨ c.t + 2408 ≤ b.t)
  sp : P.seqs.Pairwise (fun b c => b.t + 2408 ≤ c.t ∨ c.t + 2408 ≤ b.t)
  sb : ∀ b ∈ P.seqs, p + 2404 + 72 * vals.length ≤ b.t
  bb : ∀ b ∈ P.blks, p + 2404 + 72 * vals.length ≤ b.t
  x : ∀ b ∈ P.blks, ∀ c ∈ P.seqs, b.t + 2408 ≤ c.t ∨ c.t + 2408 ≤ b.t

def Prog.mem (P : Prog) (m0 : Mem) (p : Nat) (vals : List W) : Mem :=
  simage (image (bufImage m0 p vals) P.seqs) P.blks

/-- Laid out programs are in memory and well formed. -/
theorem Prog.Laid.ok {P : Prog} {p : Nat} {vals : List W} (h : P.Laid p vals) (m0 : Mem) :
    P.In (P.mem m0 p vals) ∧ P.Wf ∧ (∀ v ∈ P.vars, P.mem m0 p vals (v + 328) = 0xFFFFFFFF) ∧
    ∀ i (hi : i < vals.length), P.mem m0 p vals (p - 4 + 72 * i + 348) = vals[i] := by
  have hV := varsOK_image (m0 := m0) h.p4 h.al h.lo h.hi h.sb
  rw [← h.vars] at hV
  have hlow : ∀ x, x < p + 2404 + 72 * vals.length →
      P.mem m0 p vals x = image (bufImage m0 p vals) P.seqs x := by
    intro x hx
    exact simage_outside (fun b hb => Or.inl (by have := h.bb b hb; omega))
  have hmem : ∀ v ∈ P.vars, ∃ i, i < vals.length ∧ v = p - 4 + 72 * i := by
    intro v hv
    rw [h.vars] at hv
    obtain ⟨i, hi, rfl⟩ := List.mem_map.1 hv
    exact ⟨i, List.mem_range.1 hi, rfl⟩
  have hp4 := h.p4
  refine ⟨⟨?_, ?_, ?_⟩, ⟨hV.sep, hV.epd, ?_, hV.cp⟩, ?_, ?_⟩
  · exact simage_at h.bv h.bp
  · apply (image_loaded h.sv h.sp).congr
    intro x hx
    obtain ⟨c, hc, hr⟩ := progFoot_range hx
    exact simage_outside (fun b hb => by have := h.x b hb c hc; omega)
  · intro v hv
    obtain ⟨i, hi, rfl⟩ := hmem v hv
    apply (hV.var _ hv).congr
    · intro x hx
      apply hlow
      rcases hx with rfl | rfl | rfl | rfl <;> omega
    · rw [hlow _ (by omega)]
  · intro v hv o ho
    obtain ⟨i, hi, rfl⟩ := hmem v hv
    simp only [List.mem_cons, List.not_mem_nil, or_false] at ho
    rintro (⟨b, hb, hf⟩ | hf)
    · have := SBlk.foot_range (h.bv b hb).cl (h.bv b hb).al hf
      have := h.bb b hb
      omega
    · obtain ⟨b, hb, hr⟩ := progFoot_range hf
      have := h.sb b hb
      omega
  · intro v hv
    obtain ⟨i, hi, rfl⟩ := hmem v hv
    rw [hlow _ (by omega)]
    exact hV.mask _ hv
  · intro i hi
    rw [hlow _ (by omega), image_outside (fun b hb => Or.inl (by have := h.sb b hb; omega))]
    exact (C51_variable_buffer (bufImage_written m0 p vals) h.p4 i hi).2.1

end Eud.SC
