import Verif.Machine.Func
/-
Rules to show what structured code does.
-/

namespace Eud.SC

/-- Running `st` from view `s` comes to an end behind `st`, in a view with `Q`. -/
def Does (L : Layout) (st : Stmt) (s : Mem) (Q : Mem → Prop) : Prop := ∃ s', Exec L st s .nrm s' ∧ Q s'

/-- The same for code that may also leave with `EUDBreak`, `EUDContinue` or `EUDReturn`. -/
def Wp (L : Layout) (st : Stmt) (s : Mem) (Q : Out → Mem → Prop) : Prop := ∃ o s', Exec L st s o s' ∧ Q o s'

/-- So the machine does it. -/
theorem Does.runs {L : Layout} (hw : L.Wf) {st : Stmt} {s : Mem} {Q : Mem → Prop} (h : Does L st s Q) {r b k e x : Nat}
    (hc : Code L r b k st e x) : ∃ s', L.Runs s e s' x ∧ Q s' := by
  obtain ⟨s', h1, h2⟩ := h
  exact ⟨s', C25_structured hw h1 hc, h2⟩

theorem Wp.runs {L : Layout} (hw : L.Wf) {st : Stmt} {s : Mem} {Q : Out → Mem → Prop} (h : Wp L st s Q) {r b k e x : Nat}
    (hc : Code L r b k st e x) : ∃ o s', L.Runs s e s' (o.dest x b k r) ∧ Q o s' := by
  obtain ⟨o, s', h1, h2⟩ := h
  exact ⟨o, s', C25_structured hw h1 hc, h2⟩

theorem Does.mono {L : Layout} {st : Stmt} {s : Mem} {Q Q' : Mem → Prop} (h : Does L st s Q) (hq : ∀ s', Q s' → Q' s') :
    Does L st s Q' := by
  obtain ⟨s', h1, h2⟩ := h
  exact ⟨s', h1, hq _ h2⟩

theorem Wp.mono {L : Layout} {st : Stmt} {s : Mem} {Q Q' : Out → Mem → Prop} (h : Wp L st s Q) (hq : ∀ o s', Q o s' → Q' o s') :
    Wp L st s Q' := by
  obtain ⟨o, s', h1, h2⟩ := h
  exact ⟨o, s', h1, hq _ _ h2⟩

theorem Does.wp {L : Layout} {st : Stmt} {s : Mem} {Q : Mem → Prop} (h : Does L st s Q) : Wp L st s (fun o s' => o = .nrm ∧ Q s') := by
  obtain ⟨s', h1, h2⟩ := h
  exact ⟨_, s', h1, rfl, h2⟩

theorem Wp.does {L : Layout} {st : Stmt} {s : Mem} {Q : Out → Mem → Prop} (h : Wp L st s Q) (hq : ∀ o s', Q o s' → o = .nrm) :
    Does L st s (Q .nrm) := by
  obtain ⟨o, s', h1, h2⟩ := h
  obtain rfl := hq _ _ h2
  exact ⟨s', h1, h2⟩

theorem Does.skip {L : Layout} {s : Mem} {Q : Mem → Prop} (h : Q s) : Does L .skip s Q := ⟨s, .skip s, h⟩

theorem Does.seq {L : Layout} {a b : Stmt} {s : Mem} {Q : Mem → Prop} (h : Does L a s (fun s1 => Does L b s1 Q)) : Does L (.seq a b) s Q := by
  obtain ⟨s1, h1, s2, h2, h3⟩ := h
  exact ⟨s2, .seqN h1 h2, h3⟩

theorem Wp.seq {L : Layout} {a b : Stmt} {s : Mem} {Q : Out → Mem → Prop} (h : Wp L a s (fun o s1 => if o = .nrm then Wp L b s1 Q else Q o s1)) :
    Wp L (.seq a b) s Q := by
  obtain ⟨o, s1, h1, h2⟩ := h
  by_cases ho : o = .nrm
  · subst ho
    rw [if_pos rfl] at h2
    obtain ⟨o2, s2, h2, h3⟩ := h2
    exact ⟨o2, s2, .seqN h1 h2, h3⟩
  · rw [if_neg ho] at h2
    exact ⟨o, s1, .seqX h1 ho, h2⟩

theorem Wp.seqN {L : Layout} {a b : Stmt} {s : Mem} {Q : Out → Mem → Prop} (h : Does L a s (fun s1 => Wp L b s1 Q)) : Wp L (.seq a b) s Q := by
  obtain ⟨s1, h1, o, s2, h2, h3⟩ := h
  exact ⟨o, s2, .seqN h1 h2, h3⟩

theorem Does.prim {L : Layout} {R : Mem → Mem → Prop} {s s' : Mem} {Q : Mem → Prop} (h : R s s') (hq : Q s') : Does L (.prim R) s Q :=
  ⟨s', .prim h, hq⟩

/-- Assignments with constant or variable sources. -/
theorem Does.asg {L : Layout} {gs : List Asg} {s : Mem} {Q : Mem → Prop} (hc : ∀ g ∈ gs, L.cell g.a)
    (hv : ∀ g ∈ gs, ∀ v, g.src = .var v → v ∈ L.P.vars) (h : Q (runAsg gs s)) : Does L (.asg gs) s Q := ⟨_, .asg hc hv, h⟩

theorem Does.trig {L : Layout} {cs : List PC} {as : List PA} {s : Mem} {Q : Mem → Prop} (hc : ∀ p ∈ cs, p.Ok L s)
    (h1 : holdsAll s cs = true → ActsOk L as s ∧ Q (runPA as s)) (h0 : holdsAll s cs = false → Q s) : Does L (.trig cs as) s Q := by
  refine ⟨_, .trig hc (fun h => (h1 h).1), ?_⟩
  cases h : holdsAll s cs with
  | true => exact (h1 h).2
  | false => exact h0 h

theorem Does.acts {L : Layout} {as : List PA} {s : Mem} {Q : Mem → Prop} (ha : ActsOk L as s) (h : Q (runPA as s)) : Does L (.trig [] as) s Q :=
  ⟨_, .acts ha, h⟩

theorem Does.ite {L : Layout} {pre a b : Stmt} {cs : List PC} {s : Mem} {Q : Mem → Prop}
    (h : Does L pre s (fun s1 => (∀ p ∈ cs, p.Ok L s1) ∧ (holdsAll s1 cs = true → Does L a s1 Q) ∧ (holdsAll s1 cs = false → Does L b s1 Q))) :
    Does L (.ite pre cs a b) s Q := by
  obtain ⟨s1, h1, hc, ht, hf⟩ := h
  cases hh : holdsAll s1 cs with
  | true =>
    obtain ⟨s2, h2, h3⟩ := ht hh
    exact ⟨s2, .ite h1 hc (by rw [hh]; exact h2), h3⟩
  | false =>
    obtain ⟨s2, h2, h3⟩ := hf hh
    exact ⟨s2, .ite h1 hc (by rw [hh]; exact h2), h3⟩

theorem Wp.ite {L : Layout} {pre a b : Stmt} {cs : List PC} {s : Mem} {Q : Out → Mem → Prop}
    (h : Does L pre s (fun s1 => (∀ p ∈ cs, p.Ok L s1) ∧ (holdsAll s1 cs = true → Wp L a s1 Q) ∧ (holdsAll s1 cs = false → Wp L b s1 Q))) :
    Wp L (.ite pre cs a b) s Q := by
  obtain ⟨s1, h1, hc, ht, hf⟩ := h
  cases hh : holdsAll s1 cs with
  | true =>
    obtain ⟨o, s2, h2, h3⟩ := ht hh
    exact ⟨o, s2, .ite h1 hc (by rw [hh]; exact h2), h3⟩
  | false =>
    obtain ⟨o, s2, h2, h3⟩ := hf hh
    exact ⟨o, s2, .ite h1 hc (by rw [hh]; exact h2), h3⟩

/-- An `ite` without code for evaluating its conditions. -/
theorem Does.ite0 {L : Layout} {a b : Stmt} {cs : List PC} {s : Mem} {Q : Mem → Prop} (hc : ∀ p ∈ cs, p.Ok L s)
    (h1 : holdsAll s cs = true → Does L a s Q) (h0 : holdsAll s cs = false → Does L b s Q) : Does L (.ite .skip cs a b) s Q :=
  Does.ite (Does.skip ⟨hc, h1, h0⟩)

theorem Wp.ite0 {L : Layout} {a b : Stmt} {cs : List PC} {s : Mem} {Q : Out → Mem → Prop} (hc : ∀ p ∈ cs, p.Ok L s)
    (h1 : holdsAll s cs = true → Wp L a s Q) (h0 : holdsAll s cs = false → Wp L b s Q) : Wp L (.ite .skip cs a b) s Q :=
  Wp.ite (Does.skip ⟨hc, h1, h0⟩)

theorem Wp.brk {L : Layout} {s : Mem} {Q : Out → Mem → Prop} (h : Q .brk s) : Wp L .brk s Q := ⟨_, s, .brk s, h⟩
theorem Wp.cont {L : Layout} {s : Mem} {Q : Out → Mem → Prop} (h : Q .cont s) : Wp L .cont s Q := ⟨_, s, .cont s, h⟩
theorem Wp.ret {L : Layout} {s : Mem} {Q : Out → Mem → Prop} (h : Q .ret s) : Wp L .ret s Q := ⟨_, s, .ret s, h⟩

/-- Loops.  `I` holds at the head of the loop, with a number that gets smaller in each round. -/
theorem Wp.loop {L : Layout} {neg : Bool} {pre body inc : Stmt} {cs : List PC} {Q : Out → Mem → Prop} (I : Nat → Mem → Prop)
    (h : ∀ n s, I n s → Does L pre s (fun s1 => (∀ p ∈ cs, p.Ok L s1) ∧
      (holdsAll s1 cs = neg → Q .nrm s1) ∧
      (holdsAll s1 cs = (!neg) → Wp L body s1 (fun o s2 => match o with
          | .brk => Q .nrm s2
          | .ret => Q .ret s2
          | _ => Does L inc s2 (fun s3 => ∃ m, m < n ∧ I m s3))))) :
    ∀ {n : Nat} {s : Mem}, I n s → Wp L (.loop neg pre cs body inc) s Q := by
  intro n
  induction n using Nat.strongRecOn with
  | ind n ih =>
    intro s hI
    obtain ⟨s1, h1, hc, h2⟩ := h n s hI
    by_cases hh : holdsAll s1 cs = neg
    · exact ⟨_, s1, .loopEnd h1 hc hh, h2.1 hh⟩
    · have hh' : holdsAll s1 cs = !neg := by revert hh; cases holdsAll s1 cs <;> cases neg <;> simp
      obtain ⟨o, s2, h3, h4⟩ := h2.2 hh'
      cases o with
      | brk => exact ⟨_, s2, .loopBrk h1 hc hh' h3, h4⟩
      | ret => exact ⟨_, s2, .loopRet h1 hc hh' h3, h4⟩
      | nrm =>
        obtain ⟨s3, h5, m, hm, hI'⟩ := h4
        obtain ⟨o', s4, h6, h7⟩ := ih m hm hI'
        exact ⟨_, s4, .loopStep h1 hc hh' h3 (by simp) h5 h6, h7⟩
      | cont =>
        obtain ⟨s3, h5, m, hm, hI'⟩ := h4
        obtain ⟨o', s4, h6, h7⟩ := ih m hm hI'
        exact ⟨_, s4, .loopStep h1 hc hh' h3 (by simp) h5 h6, h7⟩

/-- Loops whose body just runs through. -/
theorem Does.loop {L : Layout} {neg : Bool} {pre body inc : Stmt} {cs : List PC} {Q : Mem → Prop} (I : Nat → Mem → Prop)
    (h : ∀ n s, I n s → Does L pre s (fun s1 => (∀ p ∈ cs, p.Ok L s1) ∧
      (holdsAll s1 cs = neg → Q s1) ∧
      (holdsAll s1 cs = (!neg) → Does L body s1 (fun s2 => Does L inc s2 (fun s3 => ∃ m, m < n ∧ I m s3))))) {n : Nat} {s : Mem} (hI : I n s) :
    Does L (.loop neg pre cs body inc) s Q := by
  refine (Wp.loop (Q := fun o s' => o = .nrm ∧ Q s') I ?_ hI).does (fun _ _ h => h.1) |>.mono fun _ h => h.2
  intro n s hI
  refine (h n s hI).mono ?_
  rintro s1 ⟨h1, h2⟩
  refine ⟨h1, fun hh => ⟨rfl, h2.1 hh⟩, fun hh => ?_⟩
  obtain ⟨s2, h3, h4⟩ := h2.2 hh
  exact ⟨_, s2, h3, h4⟩

/-! ## Lists of statements -/

/-- One after the other. -/
def Stmt.seqs : List Stmt → Stmt
  | [] => .skip
  | a :: l => .seq a (Stmt.seqs l)

theorem Does.seqs_append {L : Layout} : ∀ {l k : List Stmt} {s : Mem} {Q : Mem → Prop}, Does L (.seqs l) s (fun s1 => Does L (.seqs k) s1 Q) →
    Does L (.seqs (l ++ k)) s Q
  | [], _, _, _, h => by obtain ⟨s1, h1, h2⟩ := h; cases h1; exact h2
  | a :: l, k, s, Q, h => by
    obtain ⟨s1, h1, h2⟩ := h
    cases h1 with
    | seqN g1 g2 => exact Does.seq ⟨_, g1, Does.seqs_append ⟨_, g2, h2⟩⟩
    | seqX g1 g2 => exact absurd rfl g2

/-- A chain of similar statements. -/
theorem Does.chain {L : Layout} {α : Type} (f : α → Stmt) (I : List α → Mem → Prop) :
    ∀ (l : List α) (s : Mem), I l s → (∀ a k s, a ∈ l → I (a :: k) s → Does L (f a) s (I k)) → Does L (.seqs (l.map f)) s (I [])
  | [], s, h, _ => Does.skip h
  | a :: l, s, h, hs => Does.seq ((hs a l s (by simp) h).mono fun s1 h1 => Does.chain f I l s1 h1 (fun b k s hb => hs b k s (by simp [hb])))

/-! ## Conditions and actions with holes -/

/-- A condition at `p` whose amount is looked up when it runs. -/
def cMemV (a : Nat) (c : Cmp) (p : Nat) : PC := ⟨.check (some (.mem a)) c none (some 0xFFFFFFFF), some p⟩
/-- An action at `p` whose value is looked up when it runs. -/
def aMemV (a : Nat) (md : Mod) (p : Nat) : PA := ⟨⟨some (.mem a), md, none, some 0xFFFFFFFF⟩, some p⟩
/-- An action at `p` whose mask is looked up when it runs. -/
def aMemK (a : Nat) (md : Mod) (v : W) (p : Nat) : PA := ⟨⟨some (.mem a), md, some v, none⟩, some p⟩

@[simp] theorem cMemV_holds (s : Mem) (a : Nat) (c : Cmp) (p : Nat) : (cMemV a c p).holds s = compare c (s a) (s (p + 8)) := by
  simp only [PC.holds, cMemV, SCnd.res, Option.getD_some, Option.getD_none, Cnd.holds, Dst.addr, and_full]

@[simp] theorem aMemV_run (s : Mem) (a : Nat) (md : Mod) (p : Nat) : (aMemV a md p).run s = s.set a (arith md (s a) (s (p + 20))) := by
  simp only [PA.run, aMemV, SAct.res, Option.getD_some, Option.getD_none, Act.apply, Dst.addr, modify_full]

@[simp] theorem aMemK_run (s : Mem) (a : Nat) (md : Mod) (v : W) (p : Nat) : (aMemK a md v p).run s = s.set a (modify md (s a) v (s p)) := by
  simp only [PA.run, aMemK, SAct.res, Option.getD_some, Option.getD_none, Act.apply, Dst.addr]

theorem cMemV_ok {L : Layout} {a : Nat} (h : L.cell a) (s : Mem) (c : Cmp) (p : Nat) : (cMemV a c p).Ok L s := ⟨trivial, h.2⟩

theorem actsOk_memV {L : Layout} {a : Nat} (h : L.cell a) {s : Mem} {md : Mod} {p : Nat} {ps : List PA}
    (hr : ActsOk L ps ((aMemV a md p).run s)) : ActsOk L (aMemV a md p :: ps) s := ⟨(by intro hh; cases hh), h, hr⟩

theorem actsOk_memK {L : Layout} {a : Nat} (h : L.cell a) {s : Mem} {md : Mod} {v : W} {p : Nat} {ps : List PA}
    (hr : ActsOk L ps ((aMemK a md v p).run s)) : ActsOk L (aMemK a md v p :: ps) s := ⟨(by intro hh; cases hh), h, hr⟩

/-! ## What stays the same -/

/-- Only the listed dwords may differ. -/
def Only (l : List Nat) (s s' : Mem) : Prop := ∀ x, x ∉ l → s' x = s x

theorem Only.refl (l : List Nat) (s : Mem) : Only l s s := fun _ _ => rfl

theorem Only.trans {l : List Nat} {s1 s2 s3 : Mem} (h : Only l s1 s2) (g : Only l s2 s3) : Only l s1 s3 :=
  fun x hx => (g x hx).trans (h x hx)

theorem Only.mono {l k : List Nat} {s s' : Mem} (h : Only l s s') (hs : ∀ x ∈ l, x ∈ k) : Only k s s' :=
  fun x hx => h x (fun hl => hx (hs x hl))

theorem Only.set {l : List Nat} {s s' : Mem} (h : Only l s s') {a : Nat} (ha : a ∈ l) (w : W) : Only l s (s'.set a w) := by
  intro x hx
  have hne : x ≠ a := fun e => hx (e ▸ ha)
  rw [set_ne hne, h x hx]

theorem get_set (m : Mem) (a : Nat) (w : W) (x : Nat) : (m.set a w) x = if x = a then w else m x := rfl

end Eud.SC
