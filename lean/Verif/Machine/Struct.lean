import Verif.Machine.View
/-
C24, C25: branches, if/else and loops.  Code emitted by nested control structures
(ctrlstru/simpleblock.py, ctrlstru/loopblock.py, ctrlstru/basicstru.py, trigger/branch.py) against a
structured semantics.

Labels: `NextTrigger()` denotes the next trigger that gets emitted and `SetNextTrigger(l)` makes the
code that would fall through continue at `l` (triggerscope.py:17-44).  Here each piece of code has an
entry address and an exit address, with these labels resolved; a piece that emits no trigger has
its exit as its entry.
-/

namespace Eud.SC

/-! ## Conditions and actions with their places -/

/-- A condition, and the address where it lives if that matters because it has holes or the program
uses one of its dwords as a variable. -/
structure PC where
  c : SCnd
  pos : Option Nat := none

structure PA where
  a : SAct
  pos : Option Nat := none

/-- No holes. -/
def SCnd.static : SCnd → Prop
  | .check d _ v k => d.isSome = true ∧ v.isSome = true ∧ k.isSome = true
  | .const _ => True

def SAct.static (a : SAct) : Prop := a.dst.isSome = true ∧ a.val.isSome = true ∧ a.mask.isSome = true

theorem SCnd.static_res {c : SCnd} (h : c.static) (s : Mem) (x y : Nat) : c.res s x = c.res s y := by
  cases c with
  | const b => rfl
  | check d cm v k =>
    obtain ⟨h1, h2, h3⟩ := h
    obtain ⟨d, rfl⟩ := Option.isSome_iff_exists.1 h1
    obtain ⟨v, rfl⟩ := Option.isSome_iff_exists.1 h2
    obtain ⟨k, rfl⟩ := Option.isSome_iff_exists.1 h3
    rfl

theorem SCnd.static_ready {c : SCnd} (h : c.static) (s : Mem) (x : Nat) : c.Ready s x := by
  cases c with
  | const b => trivial
  | check d cm v k =>
    obtain ⟨h1, -, -⟩ := h
    obtain ⟨d, rfl⟩ := Option.isSome_iff_exists.1 h1
    trivial

theorem SAct.static_res {a : SAct} (h : a.static) (s : Mem) (x y : Nat) : a.res s x = a.res s y := by
  obtain ⟨d, md, v, k⟩ := a
  obtain ⟨h1, h2, h3⟩ := h
  obtain ⟨d, rfl⟩ := Option.isSome_iff_exists.1 h1
  obtain ⟨v, rfl⟩ := Option.isSome_iff_exists.1 h2
  obtain ⟨k, rfl⟩ := Option.isSome_iff_exists.1 h3
  rfl

theorem SAct.static_ready {a : SAct} (h : a.static) (s : Mem) (x : Nat) : a.Ready s x := by
  intro hd
  have := h.1
  rw [hd] at this
  simp at this

def PC.holds (s : Mem) (p : PC) : Bool := (p.c.res s (p.pos.getD 0)).holds s
def PC.Ok (L : Layout) (s : Mem) (p : PC) : Prop :=
  p.c.Ready s (p.pos.getD 0) ∧
    (match p.c.res s (p.pos.getD 0) with | .check d _ _ _ => ¬ L.priv (d.addr s) | _ => True)

/-- All conditions hold. -/
def holdsAll (s : Mem) (cs : List PC) : Bool := cs.all (PC.holds s)

def PA.run (s : Mem) (p : PA) : Mem := (p.a.res s (p.pos.getD 0)).apply s
def runPA (ps : List PA) (s : Mem) : Mem := ps.foldl PA.run s

/-- The actions write cells. -/
def ActsOk (L : Layout) : List PA → Mem → Prop
  | [], _ => True
  | p :: ps, s => p.a.Ready s (p.pos.getD 0) ∧ L.cell ((p.a.res s (p.pos.getD 0)).dst.addr s) ∧ ActsOk L ps (p.run s)

/-- The conditions sit at `x`, `x + 20`, ... -/
def PlacedC : Nat → List PC → Prop
  | _, [] => True
  | x, p :: ps => (match p.pos with | some y => y = x | none => p.c.static) ∧ PlacedC (x + 20) ps

def PlacedA : Nat → List PA → Prop
  | _, [] => True
  | x, p :: ps => (match p.pos with | some y => y = x | none => p.a.static) ∧ PlacedA (x + 32) ps

theorem PlacedC.spec {L : Layout} {s : Mem} : ∀ {cs : List PC} {x : Nat}, PlacedC x cs →
    condsS s (cs.map PC.c) x = holdsAll s cs ∧ ((∀ p ∈ cs, p.Ok L s) → L.Cnds (cs.map PC.c) x s)
  | [], _, _ => ⟨rfl, fun _ => trivial⟩
  | p :: ps, x, ⟨h1, h2⟩ => by
    obtain ⟨i1, i2⟩ := PlacedC.spec (L := L) (s := s) h2
    have e : p.c.res s x = p.c.res s (p.pos.getD 0) := by
      cases hp : p.pos with
      | some y => rw [hp] at h1; simp only at h1; subst h1; rfl
      | none => rw [hp] at h1; exact SCnd.static_res h1 _ _ _
    refine ⟨?_, fun h => ⟨?_, ?_, i2 (fun q hq => h q (by simp [hq]))⟩⟩
    · simp only [List.map_cons, condsS, i1, e, holdsAll, List.all_cons, PC.holds]
    · cases hp : p.pos with
      | some y =>
        have := (h p (by simp)).1
        rw [hp] at h1 this
        simp only at h1; subst h1; exact this
      | none => rw [hp] at h1; exact SCnd.static_ready h1 _ _
    · rw [e]; exact (h p (by simp)).2

theorem PlacedA.spec {L : Layout} : ∀ {as : List PA} {x : Nat} {s : Mem}, PlacedA x as →
    runS (as.map PA.a) x s = runPA as s ∧ (ActsOk L as s → L.Acts (as.map PA.a) x s)
  | [], _, _, _ => ⟨rfl, fun _ => trivial⟩
  | p :: ps, x, s, ⟨h1, h2⟩ => by
    have e : p.a.res s x = p.a.res s (p.pos.getD 0) := by
      cases hp : p.pos with
      | some y => rw [hp] at h1; simp only at h1; subst h1; rfl
      | none => rw [hp] at h1; exact SAct.static_res h1 _ _ _
    obtain ⟨i1, i2⟩ := PlacedA.spec (L := L) (s := p.run s) h2
    refine ⟨?_, fun h => ⟨?_, ?_, ?_⟩⟩
    · simp only [List.map_cons, runS, e]
      exact i1
    · cases hp : p.pos with
      | some y =>
        have := h.1
        rw [hp] at h1 this
        simp only at h1; subst h1; exact this
      | none => rw [hp] at h1; exact SAct.static_ready h1 _ _
    · rw [e]; exact h.2.1
    · rw [e]; exact i2 h.2.2

/-! ## `EUDBranch` -/

/-- The triggers that `EUDBranch` emits for already patched conditions (trigger/branch.py:44-78):
16 conditions at a time, each part going on to the next one; with no conditions just a jump. -/
inductive BranchAt (L : Layout) (ontrue onfalse : Nat) : Nat → List PC → List PA → Prop
  | jump : BranchAt L ontrue onfalse ontrue [] []
  | acts (t : Nat) (pre : List PA) (hne : pre ≠ []) (hp : PlacedA (t + 328) pre)
      (hb : (⟨t, ⟨[], pre.map PA.a⟩, some ontrue, false⟩ : SBlk) ∈ L.P.blks) : BranchAt L ontrue onfalse t [] pre
  | last (t tj : Nat) (cs : List PC) (pre : List PA) (hne : cs ≠ []) (hl : cs.length ≤ 16)
      (hp : PlacedC (t + 8) cs) (ha : PlacedA (tj + 328) pre)
      (hb : BranchSub L t (cs.map PC.c) (pre.map PA.a) ontrue onfalse tj) : BranchAt L ontrue onfalse t cs pre
  | part (t t' tj : Nat) (cs ds : List PC) (pre : List PA) (hl : cs.length = 16) (hd : ds ≠ [])
      (hp : PlacedC (t + 8) cs) (hb : BranchSub L t (cs.map PC.c) [] t' onfalse tj)
      (hr : BranchAt L ontrue onfalse t' ds pre) : BranchAt L ontrue onfalse t (cs ++ ds) pre

/-- **C24 (branches).** For any number of conditions, control goes to `ontrue`, after the given
actions, if all conditions hold, and to `onfalse` otherwise, and nothing else changes. -/
theorem C24_branch {L : Layout} (hw : L.Wf) {ontrue onfalse : Nat} : ∀ {t : Nat} {cs : List PC} {pre : List PA},
    BranchAt L ontrue onfalse t cs pre → ∀ {s : Mem}, (∀ p ∈ cs, p.Ok L s) → (holdsAll s cs = true → ActsOk L pre s) →
    L.Runs s t (if holdsAll s cs then runPA pre s else s) (if holdsAll s cs then ontrue else onfalse) := by
  intro t cs pre h
  induction h with
  | jump => intro s _ _; exact Layout.Runs.refl _ _ _
  | acts t pre hne hp hb =>
    intro s _ ha
    obtain ⟨e1, e2⟩ := hp.spec (L := L) (s := s)
    have := Layout.Runs.trig hw hb rfl rfl (s := s) trivial (fun _ => e2 (ha rfl))
    simp only [SBlk.exec, condsS, if_true, e1] at this
    exact this
  | last t tj cs pre hne hl hp ha hb =>
    intro s hc hpre
    obtain ⟨e1, e2⟩ := hp.spec (L := L) (s := s)
    obtain ⟨f1, f2⟩ := ha.spec (L := L) (s := s)
    have := Layout.Runs.branchSub hw hb (e2 hc) (fun h => f2 (hpre (e1 ▸ h)))
    rw [e1, f1] at this
    exact this
  | part t t' tj cs ds pre hl hd hp hb hr ih =>
    intro s hc hpre
    obtain ⟨e1, e2⟩ := hp.spec (L := L) (s := s)
    have h1 := Layout.Runs.branchSub hw hb (e2 (fun p hp => hc p (by simp [hp]))) (fun _ => trivial)
    rw [e1] at h1
    have hall : holdsAll s (cs ++ ds) = (holdsAll s cs && holdsAll s ds) := by simp [holdsAll]
    rw [hall] at hpre ⊢
    cases hcs : holdsAll s cs with
    | false =>
      rw [hcs] at h1
      simpa using h1
    | true =>
      rw [hcs] at h1 hpre
      simp only [if_true, runS, Bool.true_and] at h1 hpre ⊢
      exact h1.trans (ih (fun p hp => hc p (by simp [hp])) hpre)

/-! ## Structured code -/

/-- `*a md= src` -/
structure Asg where
  a : Nat
  md : Mod
  src : Src

def runAsg : List Asg → Mem → Mem
  | [], m => m
  | g :: gs, m => runAsg gs (m.set g.a (arith g.md (m g.a) (g.src.valM m)))

/-- Source programs: what the user writes with eudplib.  `ite` is
`EUDIf()(cs) .. EUDElse()() .. EUDEndIf()`, where evaluating the condition expressions emits the code
`pre`; `EUDIfNot` is `ite` with the branches swapped, `EUDElseIf` an `ite` in the else branch.
`loop` is `EUDWhile()(cs) .. EUDEndWhile()`, with `inc` the code after `EUDSetContinuePoint()`;
`EUDInfLoop` is `loop` without conditions; `whileNot` is `EUDWhileNot`.  `brk` and `cont` are
`EUDBreak` and `EUDContinue`, and with `ite` around them `EUDBreakIf` etc.; `ret` is the jump that
`EUDReturn` makes to the end of the function (eudfuncn.py:168-169) after it has stored the results.  `prim R` stands for any code
known to change the visible memory according to `R`. -/
inductive Stmt
  | skip
  | seq (a b : Stmt)
  | asg (gs : List Asg)
  | trig (cs : List PC) (as : List PA)
  | ite (pre : Stmt) (cs : List PC) (a b : Stmt)
  | loop (neg : Bool) (pre : Stmt) (cs : List PC) (body inc : Stmt)
  | brk
  | cont
  | ret
  | prim (R : Mem → Mem → Prop)

/-- How a statement ends. -/
inductive Out
  | nrm | brk | cont | ret
deriving DecidableEq

/-- Where control arrives. -/
def Out.dest (x b k r : Nat) : Out → Nat
  | .nrm => x
  | .brk => b
  | .cont => k
  | .ret => r

/-- Meaning of source programs, independent of triggers.  The side conditions say that only
variables and other free dwords are written. -/
inductive Exec (L : Layout) : Stmt → Mem → Out → Mem → Prop
  | skip (s : Mem) : Exec L .skip s .nrm s
  | seqN {a b : Stmt} {s s1 s2 : Mem} {o : Out} (h1 : Exec L a s .nrm s1) (h2 : Exec L b s1 o s2) :
      Exec L (.seq a b) s o s2
  | seqX {a b : Stmt} {s s1 : Mem} {o : Out} (h1 : Exec L a s o s1) (ho : o ≠ .nrm) : Exec L (.seq a b) s o s1
  | asg {gs : List Asg} {s : Mem} (hc : ∀ g ∈ gs, L.cell g.a) (hv : ∀ g ∈ gs, ∀ v, g.src = .var v → v ∈ L.P.vars) :
      Exec L (.asg gs) s .nrm (runAsg gs s)
  | trig {cs : List PC} {as : List PA} {s : Mem} (hc : ∀ p ∈ cs, p.Ok L s)
      (ha : holdsAll s cs = true → ActsOk L as s) :
      Exec L (.trig cs as) s .nrm (if holdsAll s cs then runPA as s else s)
  | ite {pre a b : Stmt} {cs : List PC} {s s1 s2 : Mem} {o : Out} (h1 : Exec L pre s .nrm s1)
      (hc : ∀ p ∈ cs, p.Ok L s1) (h2 : Exec L (if holdsAll s1 cs then a else b) s1 o s2) :
      Exec L (.ite pre cs a b) s o s2
  | loopEnd {neg : Bool} {pre body inc : Stmt} {cs : List PC} {s s1 : Mem} (h1 : Exec L pre s .nrm s1)
      (hc : ∀ p ∈ cs, p.Ok L s1) (hh : holdsAll s1 cs = neg) : Exec L (.loop neg pre cs body inc) s .nrm s1
  | loopBrk {neg : Bool} {pre body inc : Stmt} {cs : List PC} {s s1 s2 : Mem} (h1 : Exec L pre s .nrm s1)
      (hc : ∀ p ∈ cs, p.Ok L s1) (hh : holdsAll s1 cs = !neg) (h2 : Exec L body s1 .brk s2) :
      Exec L (.loop neg pre cs body inc) s .nrm s2
  | loopRet {neg : Bool} {pre body inc : Stmt} {cs : List PC} {s s1 s2 : Mem} (h1 : Exec L pre s .nrm s1)
      (hc : ∀ p ∈ cs, p.Ok L s1) (hh : holdsAll s1 cs = !neg) (h2 : Exec L body s1 .ret s2) :
      Exec L (.loop neg pre cs body inc) s .ret s2
  | loopStep {neg : Bool} {pre body inc : Stmt} {cs : List PC} {s s1 s2 s3 s4 : Mem} {o o' : Out}
      (h1 : Exec L pre s .nrm s1) (hc : ∀ p ∈ cs, p.Ok L s1) (hh : holdsAll s1 cs = !neg)
      (h2 : Exec L body s1 o s2) (ho : o ≠ .brk ∧ o ≠ .ret) (h3 : Exec L inc s2 .nrm s3)
      (h4 : Exec L (.loop neg pre cs body inc) s3 o' s4) : Exec L (.loop neg pre cs body inc) s o' s4
  | brk (s : Mem) : Exec L .brk s .brk s
  | cont (s : Mem) : Exec L .cont s .cont s
  | ret (s : Mem) : Exec L .ret s .ret s
  | prim {R : Mem → Mem → Prop} {s s' : Mem} (h : R s s') : Exec L (.prim R) s .nrm s'

/-- The emitted code: `Code L r b k st e x` means that the code of `st` starts at `e` and falls through to
`x`, inside a loop whose `loopend` is `b` and whose `contpoint` is `k`, in a function whose end is `r`. -/
inductive Code (L : Layout) : Nat → Nat → Nat → Stmt → Nat → Nat → Prop
  | skip {r b k e : Nat} : Code L r b k .skip e e
  | seq {r b k e m x : Nat} {p q : Stmt} (h1 : Code L r b k p e m) (h2 : Code L r b k q m x) :
      Code L r b k (.seq p q) e x
  | asg {r b k : Nat} {E : Env} {ts : Nat → Nat} {gs : List GA} {Q : List Blk}
      (hem : seqCompute E ts (gs.map GA.pair) = some Q) (hQ : ∀ b ∈ Q, b ∈ L.P.seqs)
      (hts : ∀ i ≤ Q.length, ts i < 2 ^ 32) (hok : ∀ g ∈ gs, g.OK E) :
      Code L r b k (.asg (gs.map (fun g => ⟨g.a, g.md, g.src⟩))) (ts 0) (ts Q.length)
  | trig {r b k t x : Nat} {cs : List PC} {as : List PA} (hc : PlacedC (t + 8) cs) (ha : PlacedA (t + 328) as)
      (hb : (⟨t, ⟨cs.map PC.c, as.map PA.a⟩, some x, false⟩ : SBlk) ∈ L.P.blks) :
      Code L r b k (.trig cs as) t x
  | ite {r b k e c ta fa x : Nat} {pre p q : Stmt} {cs : List PC} (h1 : Code L r b k pre e c)
      (hb : BranchAt L ta fa c cs []) (hp : Code L r b k p ta x) (hq : Code L r b k q fa x) :
      Code L r b k (.ite pre cs p q) e x
  | loop {r b k e c ta i x : Nat} {neg : Bool} {pre body inc : Stmt} {cs : List PC} (h1 : Code L r x i pre e c)
      (hb : BranchAt L (if neg then x else ta) (if neg then ta else x) c cs [])
      (hp : Code L r x i body ta i) (hi : Code L r x i inc i e) : Code L r b k (.loop neg pre cs body inc) e x
  | brk {r b k x : Nat} : Code L r b k .brk b x
  | cont {r b k x : Nat} : Code L r b k .cont k x
  | ret {r b k x : Nat} : Code L r b k .ret r x
  | prim {r b k e x : Nat} {R : Mem → Mem → Prop} (h : ∀ s s', R s s' → L.Runs s e s' x) :
      Code L r b k (.prim R) e x

theorem gsrcs_mem : ∀ {gs : List GA} {v : Nat}, v ∈ gsrcs gs → ∃ g ∈ gs, g.src = .var v
  | [], _, h => by simp [gsrcs] at h
  | g :: gs, v, h => by
    simp only [gsrcs] at h
    split at h
    · rename_i w hw
      simp only [List.mem_cons] at h
      rcases h with rfl | h
      · exact ⟨g, by simp, hw⟩
      · obtain ⟨g', hg', e⟩ := gsrcs_mem h
        exact ⟨g', by simp [hg'], e⟩
    · obtain ⟨g', hg', e⟩ := gsrcs_mem h
      exact ⟨g', by simp [hg'], e⟩

theorem runG_eq_runAsg : ∀ (gs : List GA) (m : Mem), runG gs m = runAsg (gs.map (fun g => ⟨g.a, g.md, g.src⟩)) m
  | [], _ => rfl
  | g :: gs, m => by simp only [runG, List.map_cons, runAsg, runG_eq_runAsg gs]

/-- **`SeqCompute`** as a piece of code. -/
theorem Layout.Runs.asg {L : Layout} (hw : L.Wf) {E : Env} {ts : Nat → Nat} {gs : List GA} {Q : List Blk}
    (hem : seqCompute E ts (gs.map GA.pair) = some Q) (hQ : ∀ b ∈ Q, b ∈ L.P.seqs)
    (hts : ∀ i ≤ Q.length, ts i < 2 ^ 32) (hok : ∀ g ∈ gs, g.OK E) {s : Mem}
    (hc : ∀ g ∈ gs, L.cell g.a) (hv : ∀ g ∈ gs, ∀ v, g.src = .var v → v ∈ L.P.vars) :
    L.Runs s (ts 0) (runG gs s) (ts Q.length) := by
  rintro m hm rfl
  have hS : ∀ v ∈ gsrcs gs, v ∈ L.P.vars := fun v h => by
    obtain ⟨g, hg, e⟩ := gsrcs_mem h
    exact hv g hg v e
  have hta : ∀ g ∈ gs, ∀ v ∈ gsrcs gs, g.a ≠ v + 4 ∧ g.a ≠ v + 328 ∧ g.a ≠ v + 344 := by
    intro g hg v hvs
    have hp := (hc g hg).2
    exact ⟨fun e => hp (Or.inl ⟨v, hS v hvs, Or.inl e⟩), fun e => hp (Or.inr (Or.inl ⟨v, hS v hvs, e⟩)),
      fun e => hp (Or.inl ⟨v, hS v hvs, Or.inr (Or.inl e)⟩)⟩
  obtain ⟨m', r, hin, hval⟩ := hm.prog.seq hw.P hem hQ hts hS hok (fun v h => hm.mask v (hS v h))
    (fun g hg => (hc g hg).1) hta
  -- nothing but targets changes
  have hrun : ∀ (gs' : List GA) (m0 : Mem) x, (∀ g ∈ gs', x ≠ g.a) → runG gs' m0 x = m0 x := by
    intro gs'
    induction gs' with
    | nil => intro _ _ _; rfl
    | cons g gs' ih =>
      intro m0 x hx
      simp only [runG]
      rw [ih _ _ (fun g' hg' => hx g' (by simp [hg'])), set_ne (hx g (by simp))]
  obtain ⟨o4, o20, o328, o344, o348, o352, o356, o384, o2376⟩ := offs_mem
  refine ⟨m', r, ⟨hin, ?_, ?_⟩, ?_⟩
  · intro v hv'
    rw [hval, hrun]
    · exact hm.mask v hv'
    · exact fun g hg e => (hc g hg).2 (e ▸ Or.inr (Or.inl ⟨v, hv', rfl⟩))
    · rintro ⟨w, hw', e | e | e⟩
      · exact hw.P.sep v hv' w (hS w hw') 328 o328 4 o4 (by omega) e
      · exact hw.P.sep v hv' w (hS w hw') 328 o328 344 o344 (by omega) e
      · exact hw.P.sep v hv' w (hS w hw') 328 o328 352 o352 (by omega) e
  · intro r hr
    rw [hval, hrun]
    · exact hm.rest r hr
    · exact fun g hg e => (hc g hg).2 (e ▸ Or.inr (Or.inr (Or.inl ⟨r, hr, rfl⟩)))
    · rintro ⟨w, hw', e | e | e⟩
      · exact (hw.rsep r hr w (hS w hw')).2.1 e
      · exact (hw.rsep r hr w (hS w hw')).2.2 e
      · exact (hw.rdat r hr).2 w (hS w hw') e
  · have hview : ∀ (gs' : List GA) (m0 : Mem), (∀ g ∈ gs', L.cell g.a) →
        (∀ g ∈ gs', ∀ v, g.src = .var v → v ∈ L.P.vars) → L.view (runG gs' m0) = runG gs' (L.view m0) := by
      intro gs'
      induction gs' with
      | nil => intros; rfl
      | cons g gs' ih =>
        intro m0 h1 h2
        simp only [runG]
        rw [ih _ (fun g' hg' => h1 g' (by simp [hg'])) (fun g' hg' => h2 g' (by simp [hg']))]
        congr 1
        have hg := h1 g (by simp)
        rw [Layout.view_set hg.2, Layout.view_at hg.2]
        cases hs : g.src with
        | const w => rfl
        | var v =>
          simp only [Src.valM]
          rw [Layout.view_at (hw.val v (h2 g (by simp) v hs))]
    rw [← hview gs m hc hv]
    apply Layout.view_congr
    intro x hx
    apply hval
    rintro ⟨v, hvs, e⟩
    exact hx (Or.inl ⟨v, hS v hvs, e⟩)

/-- **C24, C25 (structured code).** Whatever the nesting of statements, conditionals and loops, with
breaks and continues, running the emitted triggers from the entry of the code does to the visible
memory what the source program means, and control arrives behind the code, at the end of the
enclosing loop, at its continue point, or at the end of the function, accordingly. -/
theorem C25_structured {L : Layout} (hw : L.Wf) {st : Stmt} {s s' : Mem} {o : Out} (hx : Exec L st s o s') :
    ∀ {r b k e x : Nat}, Code L r b k st e x →
      L.Runs s e s' (o.dest x b k r) := by
  induction hx with
  | skip s => intro r b k e x hc; cases hc; exact Layout.Runs.refl _ _ _
  | seqN h1 h2 i1 i2 =>
    intro r b k e x hc
    cases hc with
    | seq c1 c2 => exact (i1 c1).trans (i2 c2)
  | @seqX a b s s1 o h1 ho i1 =>
    intro r b k e x hc
    cases hc with
    | seq c1 c2 =>
      have := i1 c1
      cases o with
      | nrm => exact absurd rfl ho
      | brk => exact this
      | cont => exact this
      | ret => exact this
  | asg hc hv =>
    intro r b k e x hcode
    cases hcode with
    | @asg _ _ E ts gs Q hem hQ hts hok =>
      rw [← runG_eq_runAsg]
      exact Layout.Runs.asg hw hem hQ hts hok
        (fun g hg => hc ⟨g.a, g.md, g.src⟩ (List.mem_map.2 ⟨g, hg, rfl⟩))
        (fun g hg v e => hv ⟨g.a, g.md, g.src⟩ (List.mem_map.2 ⟨g, hg, rfl⟩) v e)
  | @trig cs as s hc ha =>
    intro r b k e x hcode
    cases hcode with
    | trig hpc hpa hb =>
      obtain ⟨e1, e2⟩ := hpc.spec (L := L) (s := s)
      obtain ⟨f1, f2⟩ := hpa.spec (L := L) (s := s)
      have := Layout.Runs.trig hw hb rfl rfl (e2 hc) (fun h => f2 (ha (e1 ▸ h)))
      simp only [SBlk.exec, e1, f1] at this
      exact this
  | @ite pre a b cs s s1 s2 o h1 hc h2 i1 i2 =>
    intro r b k e x hcode
    cases hcode with
    | ite c1 hb hp hq =>
      have hbr := C24_branch hw hb hc (fun _ => trivial)
      have h12 := (i1 c1).trans hbr
      cases hh : holdsAll s1 cs with
      | true =>
        rw [hh] at h12 i2
        exact h12.trans (i2 hp)
      | false =>
        rw [hh] at h12 i2
        exact h12.trans (i2 hq)
  | @loopEnd neg pre body inc cs s s1 h1 hc hh i1 =>
    intro r b k e x hcode
    cases hcode with
    | loop c1 hb hp hi =>
      have hbr := C24_branch hw hb hc (fun _ => trivial)
      have h12 := (i1 c1).trans hbr
      rw [hh] at h12
      cases neg <;> exact h12
  | @loopBrk neg pre body inc cs s s1 s2 h1 hc hh h2 i1 i2 =>
    intro r b k e x hcode
    cases hcode with
    | loop c1 hb hp hi =>
      have hbr := C24_branch hw hb hc (fun _ => trivial)
      have h12 := (i1 c1).trans hbr
      rw [hh] at h12
      cases neg <;> exact h12.trans (i2 hp)
  | @loopRet neg pre body inc cs s s1 s2 h1 hc hh h2 i1 i2 =>
    intro r b k e x hcode
    cases hcode with
    | loop c1 hb hp hi =>
      have hbr := C24_branch hw hb hc (fun _ => trivial)
      have h12 := (i1 c1).trans hbr
      rw [hh] at h12
      have h2' : L.Runs s1 _ s2 _ := i2 hp
      cases neg <;> exact h12.trans h2'
  | @loopStep neg pre body inc cs s s1 s2 s3 s4 o o' h1 hc hh h2 ho h3 h4 i1 i2 i3 i4 =>
    intro r b k e x hcode
    cases hcode with
    | loop c1 hb hp hi =>
      have hbr := C24_branch hw hb hc (fun _ => trivial)
      have h12 := (i1 c1).trans hbr
      rw [hh] at h12
      have h3' : L.Runs s2 _ s3 _ := i3 hi
      have h4' : L.Runs s3 _ s4 _ := i4 (r := r) (b := b) (k := k) (Code.loop c1 hb hp hi)
      have h2' := i2 hp
      cases o with
      | brk => exact absurd rfl ho.1
      | ret => exact absurd rfl ho.2
      | nrm => cases neg <;> exact h12.trans (h2'.trans (h3'.trans h4'))
      | cont => cases neg <;> exact h12.trans (h2'.trans (h3'.trans h4'))
  | brk s => intro r b k e x hc; cases hc; exact Layout.Runs.refl _ _ _
  | cont s => intro r b k e x hc; cases hc; exact Layout.Runs.refl _ _ _
  | ret s => intro r b k e x hc; cases hc; exact Layout.Runs.refl _ _ _
  | prim h => intro r b k e x hc; cases hc with | prim hp => exact hp _ _ h

/-! ## Vocabulary for source programs -/

/-- Condition on a dword, without mask (stockcond.py `Memory`). -/
def cMem (a : Nat) (c : Cmp) (v : W) : PC := ⟨sChk a c v 0xFFFFFFFF, none⟩
/-- Condition on a masked dword (stockcond.py `MemoryX`). -/
def cMemX (a : Nat) (c : Cmp) (v k : W) : PC := ⟨sChk a c v k, none⟩
/-- Action on a dword (stockact.py `SetMemory`). -/
def aMem (a : Nat) (md : Mod) (v : W) : PA := ⟨sMem a md v, none⟩
/-- Action on a masked dword (stockact.py `SetMemoryX`). -/
def aMemX (a : Nat) (md : Mod) (v k : W) : PA := ⟨sMemX a md v k, none⟩

theorem and_full (w : W) : w &&& 0xFFFFFFFF = w := by
  apply BitVec.eq_of_getLsbD_eq
  intro i hi
  rw [BitVec.getLsbD_and, show (0xFFFFFFFF : W) = BitVec.allOnes 32 from by decide, BitVec.getLsbD_allOnes]
  simp [hi]

@[simp] theorem cMem_holds (s : Mem) (a : Nat) (c : Cmp) (v : W) : (cMem a c v).holds s = compare c (s a) v := by
  simp only [PC.holds, cMem, sChk_res, and_full]

@[simp] theorem cMemX_holds (s : Mem) (a : Nat) (c : Cmp) (v k : W) :
    (cMemX a c v k).holds s = compare c (s a &&& k) v := by
  simp only [PC.holds, cMemX, sChk_res]

theorem cMem_ok {L : Layout} {a : Nat} (h : L.cell a) (s : Mem) (c : Cmp) (v : W) : (cMem a c v).Ok L s :=
  ⟨sChk_ready _ _ _ _ _ _, h.2⟩

theorem cMemX_ok {L : Layout} {a : Nat} (h : L.cell a) (s : Mem) (c : Cmp) (v k : W) : (cMemX a c v k).Ok L s :=
  ⟨sChk_ready _ _ _ _ _ _, h.2⟩

@[simp] theorem aMem_run (s : Mem) (a : Nat) (md : Mod) (v : W) : (aMem a md v).run s = s.set a (arith md (s a) v) := by
  simp only [PA.run, aMem, sMem_apply]

@[simp] theorem aMemX_run (s : Mem) (a : Nat) (md : Mod) (v k : W) :
    (aMemX a md v k).run s = s.set a (modify md (s a) v k) := by
  simp only [PA.run, aMemX, sMemX_apply]

@[simp] theorem holdsAll_nil (s : Mem) : holdsAll s [] = true := rfl
@[simp] theorem holdsAll_cons (s : Mem) (p : PC) (ps : List PC) : holdsAll s (p :: ps) = (p.holds s && holdsAll s ps) := rfl
@[simp] theorem runPA_nil (s : Mem) : runPA [] s = s := rfl
@[simp] theorem runPA_cons (s : Mem) (p : PA) (ps : List PA) : runPA (p :: ps) s = runPA ps (p.run s) := rfl

theorem actsOk_mem {L : Layout} {a : Nat} (h : L.cell a) {s : Mem} {md : Mod} {v : W} {ps : List PA}
    (hr : ActsOk L ps ((aMem a md v).run s)) : ActsOk L (aMem a md v :: ps) s :=
  ⟨sMem_ready _ _ _ _ _, h, hr⟩

theorem actsOk_memX {L : Layout} {a : Nat} (h : L.cell a) {s : Mem} {md : Mod} {v k : W} {ps : List PA}
    (hr : ActsOk L ps ((aMemX a md v k).run s)) : ActsOk L (aMemX a md v k :: ps) s :=
  ⟨sMemX_ready _ _ _ _ _ _, h, hr⟩

theorem cMem_static (a : Nat) (c : Cmp) (v : W) : (cMem a c v).c.static := ⟨rfl, rfl, rfl⟩
theorem cMemX_static (a : Nat) (c : Cmp) (v k : W) : (cMemX a c v k).c.static := ⟨rfl, rfl, rfl⟩
theorem aMem_static (a : Nat) (md : Mod) (v : W) : (aMem a md v).a.static := ⟨rfl, rfl, rfl⟩
theorem aMemX_static (a : Nat) (md : Mod) (v k : W) : (aMemX a md v k).a.static := ⟨rfl, rfl, rfl⟩

/-- `DoActions(as)` / `RawTrigger(actions=as)` (basicstru.py:16-17). -/
theorem Exec.acts {L : Layout} {as : List PA} {s : Mem} (h : ActsOk L as s) :
    Exec L (.trig [] as) s .nrm (runPA as s) := by
  have := Exec.trig (L := L) (cs := []) (as := as) (s := s) (by simp) (fun _ => h)
  simpa using this

theorem cell_val {L : Layout} (hw : L.Wf) {v : Nat} (hv : v ∈ L.P.vars) : L.cell (v + 348) :=
  ⟨hw.P.data hv (by simp), hw.val v hv⟩

end Eud.SC
