import Verif.Lib.Read
import Verif.Lib.MemWrite
import Verif.Lib.Ring
/-
C42: `EUDArray` (collections/eudarray.py) and `iset` (core/inplacecw.py): the elements are independent dwords.
-/

namespace Eud.SC

/-- A variable changes the destination of another one. -/
theorem Layout.Steps.varDestMod {L : Layout} (hw : L.Wf) {q : QS} {v u n : Nat} (hv : v ∈ L.P.vars) (hu : u ∈ L.P.vars) (hn : (q.K v).nxt = some n)
    (hlt : n < 2 ^ 32) (hd : (q.K v).dst = some (epd (u + 344))) (he : EpdOK (u + 344)) {md : Mod} (hmd : (q.K v).md = some md) {w : W} (hud : (q.K u).dst = some w) :
    L.Steps q v { q with K := q.K.up u fun k => { k with dst := some (arith md w (q.s (v + 348))) } } n := by
  intro m hm
  obtain ⟨o4, o20, o328, o344, o348, o352, o356, o384, o2376⟩ := offs_mem
  have hat := hm.dest hw hu (w := arith md w (q.s (v + 348)))
  have hs := (hm.ok.prog.step_var hv (hm.kn.md v hv _ hmd) (hm.kn.dst v hv _ hd) he (hm.kn.nxt v hv n hn) hlt
    ((hw.P.data hu (by simp)).okw _ _) (hw.P.sep u hu v hv 344 o344 4 o4 (by omega))).1
  rw [hm.ok.mask v hv, modify_full] at hs
  refine ⟨_, Reaches.step hs, ?_⟩
  have : m (v + 348) = q.s (v + 348) := by rw [← hm.vw, Layout.view_at (hw.val v hv)]
  simp only [this, hm.kn.dst u hu _ hud]
  exact hat

/-! ## `iset` -/

/-- The dword at the EPD `a + b` is changed by `x`. -/
def ISetRel (L : Layout) (md : Mod) (a b x : Src) (s s' : Mem) : Prop :=
  PlainEpd (a.valM s + b.valM s) ∧ L.cell (epdAddr (a.valM s + b.valM s)) ∧
    s' = s.set (epdAddr (a.valM s + b.valM s)) (arith md (s (epdAddr (a.valM s + b.valM s))) (x.valM s))

/-- inplacecw.py:60-69 `VProc([a, b, v], [a.QueueAssignTo(EPD(v.getDestAddr())), b.QueueAddTo(EPD(v.getDestAddr())), v.SetModifier(md)])` -/
def isetVV (a b v n : Nat) (md : Mod) : List QA :=
  [.dest a (epd (v + 344)), .modi a .set, .dest b (epd (v + 344)), .modi b .add, .modi v md, .vnext a b, .vnext b v, .vnext v n]
/-- inplacecw.py:70-79 `VProc([a, v], [v.SetDest(b), a.QueueAddTo(EPD(v.getDestAddr())), v.SetModifier(md)])` -/
def isetVC (a : Nat) (b : W) (v n : Nat) (md : Mod) : List QA := [.dest v b, .dest a (epd (v + 344)), .modi a .add, .modi v md, .vnext a v, .vnext v n]

theorem isetVV_code {L : Layout} (hw : L.Wf) {t a b v n : Nat} {md : Mod} (ha : a ∈ L.P.vars) (hb : b ∈ L.P.vars) (hv : v ∈ L.P.vars) (hab : a ≠ b) (hav : a ≠ v) (hbv : b ≠ v) (hbl : b < 2 ^ 32)
    (hl : v < 2 ^ 32) (hn : n < 2 ^ 32) (he : EpdOK (v + 344)) (hblk : (⟨t, ⟨[], (isetVV a b v n md).map QA.act⟩, some a, false⟩ : SBlk) ∈ L.P.blks) {r j k : Nat} :
    Code L r j k (.prim (ISetRel L md (.var a) (.var b) (.var v))) t n := by
  refine .prim ?_
  rintro s s' ⟨h1, h2, rfl⟩
  simp only [Src.valM] at h1 h2 ⊢
  have hba := Ne.symm hab
  have hva := Ne.symm hav
  have hvb := Ne.symm hbv
  have g1 := Layout.Steps.trig hw (cs := []) (as := isetVV a b v n md) (nx := some a) hblk trivial (by simp [PlacedQ, isetVV]) (q := ⟨[], KB.none, s⟩) (by simp)
    (fun _ => ⟨ha, ha, hb, hb, hv, ⟨ha, hbl⟩, ⟨hb, hl⟩, ⟨hv, hn⟩, trivial⟩) (n := a) rfl
  simp only [holdsAll_nil, if_true] at g1
  have g2 := g1.trans (Layout.Steps.varDest hw ha hv (n := b) (by simp [isetVV, runQA, QA.run, KB.up, hab, hav, hba, hbv]) hbl (by simp [isetVV, runQA, QA.run, KB.up, hab, hav]) he
    (by simp [isetVV, runQA, QA.run, KB.up, hab, hav]))
  have g3 := g2.trans (Layout.Steps.varDestMod hw hb hv (n := v) (md := .add) (w := s (a + 348)) (by simp [isetVV, runQA, QA.run, KB.up, hba, hbv]) hl (by simp [isetVV, runQA, QA.run, KB.up, hba, hbv]) he
    (by simp [isetVV, runQA, QA.run, KB.up, hba, hbv]) (by simp [isetVV, runQA, QA.run, KB.up]))
  have g4 := g3.trans (Layout.Steps.var hw hv (n := n) (md := md) (d := .mem (epdAddr (s (a + 348) + s (b + 348)))) (w := s (a + 348) + s (b + 348)) (by simp [isetVV, runQA, QA.run, KB.up, hva, hvb]) hn
    (by simp [isetVV, runQA, QA.run, KB.up, arith]) (dstOf_plain h1) h2 (by simp [isetVV, runQA, QA.run, KB.up, hva, hvb]))
  exact Layout.Steps.runs hw g4 (by simp [isetVV, runQA, QA.run])

theorem isetVC_code {L : Layout} (hw : L.Wf) {t a v n : Nat} {c : W} {md : Mod} {x y : Src} (hxy : (x = .var a ∧ y = .const c) ∨ (x = .const c ∧ y = .var a)) (ha : a ∈ L.P.vars) (hv : v ∈ L.P.vars) (hav : a ≠ v)
    (hl : v < 2 ^ 32) (hn : n < 2 ^ 32) (he : EpdOK (v + 344)) (hblk : (⟨t, ⟨[], (isetVC a c v n md).map QA.act⟩, some a, false⟩ : SBlk) ∈ L.P.blks) {r j k : Nat} :
    Code L r j k (.prim (ISetRel L md x y (.var v))) t n := by
  refine .prim ?_
  rintro s s' ⟨h1, h2, rfl⟩
  have e : x.valM s + y.valM s = c + s (a + 348) := by
    rcases hxy with ⟨rfl, rfl⟩ | ⟨rfl, rfl⟩
    · exact BitVec.add_comm _ _
    · rfl
  rw [e] at h1 h2 ⊢
  have hva := Ne.symm hav
  have g1 := Layout.Steps.trig hw (cs := []) (as := isetVC a c v n md) (nx := some a) hblk trivial (by simp [PlacedQ, isetVC]) (q := ⟨[], KB.none, s⟩) (by simp)
    (fun _ => ⟨hv, ha, ha, hv, ⟨ha, hl⟩, ⟨hv, hn⟩, trivial⟩) (n := a) rfl
  simp only [holdsAll_nil, if_true] at g1
  have g2 := g1.trans (Layout.Steps.varDestMod hw ha hv (n := v) (md := .add) (w := c) (by simp [isetVC, runQA, QA.run, KB.up, hav]) hl (by simp [isetVC, runQA, QA.run, KB.up, hav]) he
    (by simp [isetVC, runQA, QA.run, KB.up, hav]) (by simp [isetVC, runQA, QA.run, KB.up, hva]))
  have g3 := g2.trans (Layout.Steps.var hw hv (n := n) (md := md) (d := .mem (epdAddr (c + s (a + 348)))) (w := c + s (a + 348)) (by simp [isetVC, runQA, QA.run, KB.up, hva]) hn
    (by simp [isetVC, runQA, QA.run, KB.up, arith]) (dstOf_plain h1) h2 (by simp [isetVC, runQA, QA.run, KB.up, hva]))
  exact Layout.Steps.runs hw g3 (by simp [isetVC, runQA, QA.run])

/-- The destination of the action at `p` becomes `a + b`. -/
def FillRel (p : Nat) (a b : Src) (s s' : Mem) : Prop := s' = s.set (p + 16) (a.valM s + b.valM s)

/-- inplacecw.py:81-88 `VProc([a, b], [a.QueueAssignTo(EPD(set_v) + 4), b.QueueAddTo(EPD(set_v) + 4)])` -/
def fillVV (a b p n : Nat) : List QA := [.dest a (epd (p + 16)), .modi a .set, .dest b (epd (p + 16)), .modi b .add, .vnext a b, .vnext b n]
/-- inplacecw.py:90-98 `VProc(a, [SetMemory(set_v + 16, SetTo, b), a.QueueAddTo(EPD(set_v) + 4)])` -/
def fillVC (a : Nat) (b : W) (p n : Nat) : List QA := [.cell (aMem (p + 16) .set b), .dest a (epd (p + 16)), .modi a .add, .vnext a n]

theorem fillVV_code {L : Layout} (hw : L.Wf) {t a b p n : Nat} (ha : a ∈ L.P.vars) (hb : b ∈ L.P.vars) (hab : a ≠ b) (hbl : b < 2 ^ 32) (hn : n < 2 ^ 32) (hp : L.cell (p + 16)) (he : EpdOK (p + 16))
    (hpb : p + 16 ≠ b + 348) (hblk : (⟨t, ⟨[], (fillVV a b p n).map QA.act⟩, some a, false⟩ : SBlk) ∈ L.P.blks) {r j k : Nat} : Code L r j k (.prim (FillRel p (.var a) (.var b))) t n := by
  refine .prim ?_
  rintro s s' rfl
  have hba := Ne.symm hab
  have g1 := Layout.Steps.trig hw (cs := []) (as := fillVV a b p n) (nx := some a) hblk trivial (by simp [PlacedQ, fillVV]) (q := ⟨[], KB.none, s⟩) (by simp)
    (fun _ => ⟨ha, ha, hb, hb, ⟨ha, hbl⟩, ⟨hb, hn⟩, trivial⟩) (n := a) rfl
  simp only [holdsAll_nil, if_true] at g1
  have g2 := g1.trans (Layout.Steps.var hw ha (n := b) (md := .set) (d := .mem (p + 16)) (w := epd (p + 16)) (by simp [fillVV, runQA, QA.run, KB.up, hab]) hbl (by simp [fillVV, runQA, QA.run, KB.up, hab]) (dstOf_epd he)
    hp (by simp [fillVV, runQA, QA.run, KB.up, hab]))
  have g3 := g2.trans (Layout.Steps.var hw hb (n := n) (md := .add) (d := .mem (p + 16)) (w := epd (p + 16)) (by simp [fillVV, runQA, QA.run, KB.up, hba]) hn (by simp [fillVV, runQA, QA.run, KB.up, hba]) (dstOf_epd he)
    hp (by simp [fillVV, runQA, QA.run, KB.up, hba]))
  have g4 := Layout.Steps.runs hw g3 (by simp [fillVV, runQA, QA.run])
  simp only [fillVV, runQA, QA.run, Dst.addr, arith, set_eq, set_ne (Ne.symm hpb)] at g4
  have : ((s.set (p + 16) (s (a + 348))).set (p + 16) (s (a + 348) + s (b + 348))) = s.set (p + 16) (s (a + 348) + s (b + 348)) := by
    funext x
    simp only [get_set]
    split <;> rfl
  rw [this] at g4
  exact g4

theorem fillVC_code {L : Layout} (hw : L.Wf) {t a p n : Nat} {c : W} {x y : Src} (hxy : (x = .var a ∧ y = .const c) ∨ (x = .const c ∧ y = .var a)) (ha : a ∈ L.P.vars) (hn : n < 2 ^ 32) (hp : L.cell (p + 16))
    (he : EpdOK (p + 16)) (hpa : p + 16 ≠ a + 348) (hblk : (⟨t, ⟨[], (fillVC a c p n).map QA.act⟩, some a, false⟩ : SBlk) ∈ L.P.blks) {r j k : Nat} : Code L r j k (.prim (FillRel p x y)) t n := by
  refine .prim ?_
  rintro s s' rfl
  have e : x.valM s + y.valM s = c + s (a + 348) := by
    rcases hxy with ⟨rfl, rfl⟩ | ⟨rfl, rfl⟩
    · exact BitVec.add_comm _ _
    · rfl
  rw [e]
  have g1 := Layout.Steps.trig hw (cs := []) (as := fillVC a c p n) (nx := some a) hblk trivial ⟨aMem_static _ _ _, trivial⟩ (q := ⟨[], KB.none, s⟩) (by simp)
    (fun _ => ⟨⟨(by intro h; cases h), hp⟩, ha, ha, ⟨ha, hn⟩, trivial⟩) (n := a) rfl
  simp only [holdsAll_nil, if_true] at g1
  have g2 := g1.trans (Layout.Steps.var hw ha (n := n) (md := .add) (d := .mem (p + 16)) (w := epd (p + 16)) (by simp [fillVC, runQA, QA.run, KB.up]) hn (by simp [fillVC, runQA, QA.run, KB.up]) (dstOf_epd he)
    hp (by simp [fillVC, runQA, QA.run, KB.up]))
  have g4 := Layout.Steps.runs hw g2 (by simp [fillVC, runQA, QA.run])
  simp only [fillVC, runQA, QA.run, Dst.addr, arith, aMem_run, set_eq, set_ne (Ne.symm hpa)] at g4
  have : ((s.set (p + 16) c).set (p + 16) (c + s (a + 348))) = s.set (p + 16) (c + s (a + 348)) := by
    funext x
    simp only [get_set]
    split <;> rfl
  rw [this] at g4
  exact g4

/-- `a` and `b` are one and the same variable. -/
def Src.same : Src → Src → Bool
  | .var a, .var b => a == b
  | _, _ => false

/-- eudv.py:281-297 `a + b` into the new variable `t`: `SeqCompute([(t, SetTo, other), (t, Add, self)])`, where `self` is `b` when only that is a variable. -/
def sumAsg (t : Nat) : Src → Src → List Asg
  | .const c, .var v => [⟨t + 348, .set, .const c⟩, ⟨t + 348, .add, .var v⟩]
  | a, b => [⟨t + 348, .set, b⟩, ⟨t + 348, .add, a⟩]

/-- inplacecw.py:52-97 `iset(a, b, md, x)`: `SetMemoryEPD(a + b, md, x)`.  `t` is the variable for the sum (eudv.py:281-297), and the action is at `p`.
`f` tells that two constants among `a`, `b`, `x` are the same Python object. -/
def iset (L : Layout) (p t : Nat) (f : Bool) (md : Mod) : Src → Src → Src → Stmt
  | .const a, .const b, x => setdw L p md (.const (a + b)) x
  | a, b, x =>
    if f || a.same b || a.same x || b.same x then .seq (.asg (sumAsg t a b)) (setdw L p md (.var t) x)
    else match x with
      | .var v => .prim (ISetRel L md a b (.var v))
      | .const c => .seq (.prim (FillRel p a b)) (.trig [] [⟨⟨none, md, some c, some 0xFFFFFFFF⟩, some p⟩])

/-- Static facts: the operands are not the dwords that are filled in. -/
structure ISetOk (L : Layout) (p t : Nat) (a b x : Src) : Prop where
  cell : ∀ v, (a = .var v ∨ b = .var v) → L.cell (p + 16)
  tv : t ∈ L.P.vars
  tc : L.cell (t + 348)
  tn : t + 348 ∉ [p, p + 16, p + 20]
  src : ∀ v, (a = .var v ∨ b = .var v ∨ x = .var v) → v ∈ L.P.vars ∧ v ≠ t

theorem sum_val {t : Nat} {a b : Src} (h : ∀ v, (a = .var v ∨ b = .var v) → v ≠ t) (s : Mem) :
    runAsg (sumAsg t a b) s = s.set (t + 348) (a.valM s + b.valM s) := by
  have e : ∀ c w, (a = c ∨ b = c) → c.valM (s.set (t + 348) w) = c.valM s := by
    intro c w hc
    cases c with
    | const c => rfl
    | var v => exact set_ne (by have := h v hc; omega)
  have key : ∀ c d, (a = d ∨ b = d) → runAsg [⟨t + 348, .set, c⟩, ⟨t + 348, .add, d⟩] s = s.set (t + 348) (c.valM s + d.valM s) := by
    intro c d hd
    funext x
    simp only [runAsg, e d _ hd, arith, set_eq]
    rw [get_set, get_set, get_set]
    split <;> rfl
  cases a with
  | const c =>
    cases b with
    | const d => rw [sumAsg, key _ _ (by simp), BitVec.add_comm]; simp
    | var v => rw [sumAsg, key _ _ (by simp)]
  | var v => rw [sumAsg, key _ _ (by simp), BitVec.add_comm]; simp

theorem sumAsg_mem {t : Nat} {a b : Src} {g : Asg} (hg : g ∈ sumAsg t a b) : g.a = t + 348 ∧ (g.src = a ∨ g.src = b) := by
  cases a <;> cases b <;> simp only [sumAsg, List.mem_cons, List.not_mem_nil, or_false] at hg <;> rcases hg with rfl | rfl <;> simp

/-- `iset`, for constants and variables, also the same one twice: exactly the dword at `a + b` changes. -/
theorem iset_does {L : Layout} {p t : Nat} {f : Bool} {md : Mod} {a b x : Src} (hO : ISetOk L p t a b x) {s : Mem} (hpl : PlainEpd (a.valM s + b.valM s)) (hc : L.cell (epdAddr (a.valM s + b.valM s)))
    (hn : epdAddr (a.valM s + b.valM s) ∉ [t + 348, p, p + 16, p + 20]) :
    Does L (iset L p t f md a b x) s fun s' => s' (epdAddr (a.valM s + b.valM s)) = arith md (s (epdAddr (a.valM s + b.valM s))) (x.valM s) ∧
      Only [epdAddr (a.valM s + b.valM s), t + 348, p, p + 16, p + 20] s s' := by
  have hn' := hn
  simp only [List.mem_cons, List.not_mem_nil, or_false, not_or] at hn'
  have hsum : (¬ ∃ c d, a = .const c ∧ b = .const d) → Does L (.seq (.asg (sumAsg t a b)) (setdw L p md (.var t) x)) s fun s' =>
      s' (epdAddr (a.valM s + b.valM s)) = arith md (s (epdAddr (a.valM s + b.valM s))) (x.valM s) ∧ Only [epdAddr (a.valM s + b.valM s), t + 348, p, p + 16, p + 20] s s' := by
    intro hcc
    have hv16 : L.cell (p + 16) := by
      cases a with
      | var v => exact hO.cell v (Or.inl rfl)
      | const c =>
        cases b with
        | var v => exact hO.cell v (Or.inr rfl)
        | const d => exact absurd ⟨_, _, rfl, rfl⟩ hcc
    refine Does.seq (Does.asg ?_ ?_ ?_)
    · intro g hg
      rw [(sumAsg_mem hg).1]
      exact hO.tc
    · intro g hg v hv
      rcases (sumAsg_mem hg).2 with h | h
      · exact (hO.src v (Or.inl (h ▸ hv))).1
      · exact (hO.src v (Or.inr (Or.inl (h ▸ hv)))).1
    · rw [sum_val (fun v hv => (hO.src v (by rcases hv with h | h <;> simp [h])).2) s]
      have et : Src.valM (s.set (t + 348) (a.valM s + b.valM s)) (.var t) = a.valM s + b.valM s := set_eq _ _ _
      refine (C34_setdw (e := .var t) (x := x) (by rintro v hv; cases hv; exact ⟨hO.tv, hO.tn, hv16⟩) (by rw [et]; exact hpl) (by rw [et]; exact hc) (by rw [et]; simp [hn'])).mono ?_
      rintro s' ⟨h1, h2⟩
      rw [et] at h1 h2
      have ex : x.valM (s.set (t + 348) (a.valM s + b.valM s)) = x.valM s := by
        cases x with
        | const c => rfl
        | var v => exact set_ne (by have := (hO.src v (by simp)).2; omega)
      refine ⟨?_, fun y hy => ?_⟩
      · rw [h1, ex, set_ne hn'.1]
      · simp only [List.mem_cons, List.not_mem_nil, or_false, not_or] at hy
        rw [h2 y (by simp [hy]), set_ne hy.2.1]
  have key : ∀ (_ : ¬ ∃ c d, a = .const c ∧ b = .const d), iset L p t f md a b x =
      if f || a.same b || a.same x || b.same x then .seq (.asg (sumAsg t a b)) (setdw L p md (.var t) x)
      else match x with
        | .var v => .prim (ISetRel L md a b (.var v))
        | .const c => .seq (.prim (FillRel p a b)) (.trig [] [⟨⟨none, md, some c, some 0xFFFFFFFF⟩, some p⟩]) := by
    intro h
    cases a <;> cases b <;> first | exact absurd ⟨_, _, rfl, rfl⟩ h | (cases x <;> rfl)
  by_cases hcc : ∃ c d, a = .const c ∧ b = .const d
  · obtain ⟨c, d, rfl, rfl⟩ := hcc
    refine (C34_setdw (e := .const (c + d)) (x := x) (by rintro v hv; cases hv) hpl hc (by simp only [Src.valM] at hn' ⊢; simp [hn'])).mono ?_
    rintro s' ⟨h1, h2⟩
    exact ⟨h1, h2.mono (by simp only [Src.valM]; grind)⟩
  rw [key hcc]
  split
  · exact hsum hcc
  cases x with
  | var v => exact Does.prim ⟨hpl, hc, rfl⟩ ⟨set_eq _ _ _, (Only.refl _ _).set (by simp) _⟩
  | const c =>
    refine Does.seq (Does.prim rfl ?_)
    have e16 : dstOf (s.set (p + 16) (a.valM s + b.valM s) (p + 16)) 0 = some (.mem (epdAddr (a.valM s + b.valM s))) := by rw [set_eq]; exact dstOf_plain hpl
    have er : (⟨none, md, some c, some 0xFFFFFFFF⟩ : SAct).res (s.set (p + 16) (a.valM s + b.valM s)) p = ⟨.mem (epdAddr (a.valM s + b.valM s)), md, c, 0xFFFFFFFF⟩ := by
      simp only [SAct.res, e16, Option.getD_none, Option.getD_some]
    refine Does.acts ⟨?_, ?_, trivial⟩ ?_
    · intro _
      simp only [Option.getD_some, e16]
      rfl
    · simp only [Option.getD_some, er]
      exact hc
    · simp only [runPA_cons, runPA_nil, PA.run, Option.getD_some, er, Act.apply, Dst.addr]
      refine ⟨?_, ?_⟩
      · rw [set_eq, set_ne hn'.2.2.1]
        exact modify_full _ _ _
      · intro y hy
        simp only [List.mem_cons, List.not_mem_nil, or_false, not_or] at hy
        rw [set_ne hy.1, set_ne hy.2.2.2.1]

/-! ## Arrays -/

/-- eudv.py:281-297 `a + b`: code and result.  An operand that is a temporary is changed in place. -/
inductive AddsTo (t : Nat) : Src → Src → List Asg → Src → Prop
  | const (c d : W) : AddsTo t (.const c) (.const d) [] (.const (c + d))
  | fresh {a b : Src} (h : ¬ ∃ c d, a = .const c ∧ b = .const d) : AddsTo t a b (sumAsg t a b) (.var t)
  | left (v : Nat) (b : Src) : AddsTo t (.var v) b [⟨v + 348, .add, b⟩] (.var v)
  | right (a : Src) (v : Nat) : AddsTo t a (.var v) [⟨v + 348, .add, a⟩] (.var v)

theorem AddsTo.val {t : Nat} {a b r : Src} {gs : List Asg} (h : AddsTo t a b gs r) (ht : ∀ v, (a = .var v ∨ b = .var v) → v ≠ t) (s : Mem) : r.valM (runAsg gs s) = a.valM s + b.valM s := by
  cases h with
  | const c d => rfl
  | fresh h => rw [sum_val ht]; exact set_eq _ _ _
  | left v b => exact set_eq _ _ _
  | right a v => exact (set_eq _ _ _).trans (BitVec.add_comm _ _)

theorem epdAddr_add {b i : Nat} (h : b % 4 = 0) (h2 : b + 4 * i < 2 ^ 32) : epdAddr (epd b + BitVec.ofNat 32 i) = b + 4 * i := by
  unfold epdAddr
  rw [BitVec.toNat_add, epd_toNat b h (by omega), BitVec.toNat_ofNat]
  simp only [deathTable]
  split <;> omega

/-- The arrays of a program: `n` of them, `base k` and `len k` are address and number of elements (eudarray.py:41-66 `EUDArrayData`).  `rend` and `cpc` are the reader's places, and
`U` has the dwords of the rest of the program. -/
structure Arrs where
  n : Nat
  base : Nat → Nat
  len : Nat → Nat
  rend : Nat
  cpc : Nat
  U : List Nat

def Arrs.at (A : Arrs) (k i : Nat) : Nat := A.base k + 4 * i

/-- Element `i` of array `k` exists. -/
def Arrs.In (A : Arrs) (k i : Nat) : Prop := k < A.n ∧ i < A.len k

instance (A : Arrs) (k i : Nat) : Decidable (A.In k i) := inferInstanceAs (Decidable (_ ∧ _))

/-- What only the reader uses. -/
def Arrs.rd (A : Arrs) : List Nat := (A.cpc + 352) :: rdScr A.rend A.cpc

structure Arrs.Ok (L : Layout) (A : Arrs) : Prop where
  al : ∀ k < A.n, A.base k % 4 = 0
  lt : ∀ k i, A.In k i → A.at k i < 2 ^ 32
  plain : ∀ k i, A.In k i → PlainEpd (epd (A.base k) + BitVec.ofNat 32 i)
  cell : ∀ k i, A.In k i → L.cell (A.at k i)
  inj : ∀ k i k' i', A.In k i → A.In k' i' → A.at k i = A.at k' i' → k = k' ∧ i = i'
  rdn : ∀ k i, A.In k i → A.at k i ∉ A.rd
  un : ∀ k i, A.In k i → A.at k i ∉ A.U
  urd : ∀ x ∈ A.U, x ∉ A.rd

/-- Operations: `o = array[key]`, `array[key] = x` and the like, and assignments.  `k` is the array that `a` is the EPD of. -/
inductive ArrOp
  | get (k t : Nat) (a key : Src) (gs : List Asg) (r : Src) (nxt o : Nat)
  | put (k p t : Nat) (f : Bool) (md : Mod) (a key x : Src)
  | user (gs : List Asg)

/-- eudarray.py:168-199 `get`, `set`, `iadditem`, `isubtractitem` -/
def ArrOp.stmt (L : Layout) (A : Arrs) : ArrOp → Stmt
  | .get _ _ _ _ gs r nxt o => .seq (.asg gs) (.prim (EpdRel L A.rend A.cpc nxt o 0xFFFFFFFF 0 r none))
  | .put _ p t f md a key x => iset L p t f md a key x
  | .user gs => .asg gs

/-- Operands and targets are dwords of the program. -/
def AsgIn (L : Layout) (U : List Nat) (gs : List Asg) : Prop := (∀ g ∈ gs, L.cell g.a ∧ g.a ∈ U ∧ SrcIn U g.src) ∧ ∀ g ∈ gs, ∀ v, g.src = .var v → v ∈ L.P.vars

def ArrOp.Ok (L : Layout) (A : Arrs) : ArrOp → Prop
  | .get _ t a key gs r _ o => AddsTo t a key gs r ∧ (∀ v, (a = .var v ∨ key = .var v) → v ≠ t) ∧ SrcIn A.U a ∧ SrcIn A.U key ∧ AsgIn L A.U gs ∧ RdOk L A.rend A.cpc o r ∧ o ∈ A.U
  | .put _ p t _ _ a key x => ISetOk L p t a key x ∧ SrcIn A.U a ∧ SrcIn A.U key ∧ SrcIn A.U x ∧
      ∀ y ∈ [t + 348, p, p + 16, p + 20], y ∉ A.U ∧ y ∉ A.rd ∧ ∀ k i, A.In k i → A.at k i ≠ y
  | .user gs => AsgIn L A.U gs

/-- Arrays as functions: `f k i` is element `i` of array `k`.  `none` where the index is out of bounds, or the array is another one. -/
def ArrOp.spec (A : Arrs) : ArrOp → (Nat → Nat → W) × Mem → Option ((Nat → Nat → W) × Mem)
  | .get k _ a key gs _ _ o, (f, e) =>
    if A.In k (key.valM e).toNat ∧ a.valM e = epd (A.base k) then some (f, (runAsg gs e).set o (f k (key.valM e).toNat)) else none
  | .put k _ _ _ md a key x, (f, e) =>
    if A.In k (key.valM e).toNat ∧ a.valM e = epd (A.base k) then
      some (fun k' i' => if k' = k ∧ i' = (key.valM e).toNat then arith md (f k' i') (x.valM e) else f k' i', e)
    else none
  | .user gs, (f, e) => some (f, runAsg gs e)

def ArrOp.run (A : Arrs) : List ArrOp → (Nat → Nat → W) × Mem → Option ((Nat → Nat → W) × Mem)
  | [], a => some a
  | o :: os, a => (o.spec A a).bind (ArrOp.run A os)

/-- The memory holds the elements `f`, and the program's dwords are those of `e`. -/
structure ArrIs (A : Arrs) (s : Mem) (a : (Nat → Nat → W) × Mem) : Prop where
  el : ∀ k i, A.In k i → s (A.at k i) = a.1 k i
  md : s (A.cpc + 352) = pmod .set
  z : s (A.rend + 348) = 0
  u : ∀ x ∈ A.U, s x = a.2 x

theorem arrStep {L : Layout} {A : Arrs} (hA : A.Ok L) {op : ArrOp} (hop : op.Ok L A) {s : Mem} {a a' : (Nat → Nat → W) × Mem} (hI : ArrIs A s a) (hs : op.spec A a = some a') :
    Does L (op.stmt L A) s fun s' => ArrIs A s' a' := by
  obtain ⟨f, e⟩ := a
  have rd348 : A.rend + 348 ∈ A.rd := by simp [Arrs.rd, rdScr]
  have cp352 : A.cpc + 352 ∈ A.rd := by simp [Arrs.rd]
  have asg : ∀ gs, AsgIn L A.U gs → ArrIs A (runAsg gs s) (f, runAsg gs e) := by
    intro gs hg
    obtain ⟨g1, g2⟩ := runAsg_in gs hI.u fun g h => (hg.1 g h).2
    exact ⟨fun k i h => (g2 _ (hA.un k i h)).trans (hI.el k i h), (g2 _ fun h => hA.urd _ h cp352).trans hI.md, (g2 _ fun h => hA.urd _ h rd348).trans hI.z, g1⟩
  have addr : ∀ {k : Nat} {key : Src}, A.In k (key.valM e).toNat → epdAddr (epd (A.base k) + key.valM e) = A.at k (key.valM e).toNat := by
    intro k key h
    have := epdAddr_add (hA.al k h.1) (i := (key.valM e).toNat) (hA.lt _ _ h)
    rw [BitVec.ofNat_toNat, BitVec.setWidth_eq] at this
    exact this
  cases op with
  | user gs =>
    simp only [ArrOp.spec, Option.some.injEq] at hs
    subst hs
    exact Does.asg (fun g h => (hop.1 g h).1) hop.2 (asg gs hop)
  | get k t a key gs r nxt o =>
    simp only [ArrOp.spec] at hs
    split at hs
    · rename_i hh
      obtain ⟨hin, ha⟩ := hh
      simp only [Option.some.injEq] at hs
      subst hs
      obtain ⟨o1, o2, o3, o4, o5, o6, o7⟩ := hop
      refine Does.seq (Does.asg (fun g h => (o5.1 g h).1) o5.2 ?_)
      have I1 := asg gs o5
      have er : r.valM (runAsg gs s) = epd (A.base k) + key.valM e := by rw [o1.val o2, valM_in hI.u o3, valM_in hI.u o4, ha]
      have ea : epdAddr (r.valM (runAsg gs s)) = A.at k (key.valM e).toNat := by rw [er, addr hin]
      refine (C32_epd o6 I1.md (by rw [ea]; exact (hA.cell _ _ hin).2) (by rw [ea]; intro h; exact hA.rdn _ _ hin (by simp [Arrs.rd, h]))).mono ?_
      rintro s' ⟨h1, h2, h3, h4⟩
      rw [ea, C32_dword, Option.getD_none, I1.z, show ∀ w : W, (0 : W) + w = w from fun w => BitVec.zero_add w, I1.el _ _ hin] at h1
      refine ⟨fun k i h => ?_, ?_, h3, fun x hx => ?_⟩
      · refine (h4 _ ?_).trans (I1.el k i h)
        intro hm
        simp only [List.mem_cons] at hm
        rcases hm with hm | hm
        · exact hA.un _ _ h (hm ▸ o7)
        · exact hA.rdn _ _ h (by simp [Arrs.rd, hm])
      · refine (h4 _ ?_).trans I1.md
        intro hm
        simp only [List.mem_cons] at hm
        rcases hm with hm | hm
        · exact o6.nm.1 hm.symm
        · exact o6.nm.2 hm
      · show s' x = (runAsg gs e).set o _ x
        rw [get_set]
        split
        · rename_i hx; rw [hx]; exact h1
        · rename_i hne
          refine (h4 _ ?_).trans (I1.u x hx)
          intro hm
          simp only [List.mem_cons] at hm
          rcases hm with hm | hm
          · exact hne hm
          · exact hA.urd _ hx (by simp [Arrs.rd, hm])
    · cases hs
  | put k p t fl md a key x =>
    simp only [ArrOp.spec] at hs
    split at hs
    · rename_i hh
      obtain ⟨hin, ha⟩ := hh
      simp only [Option.some.injEq] at hs
      subst hs
      obtain ⟨o1, o2, o3, o4, o5⟩ := hop
      have es : a.valM s + key.valM s = epd (A.base k) + key.valM e := by rw [valM_in hI.u o2, valM_in hI.u o3, ha]
      have ea : epdAddr (a.valM s + key.valM s) = A.at k (key.valM e).toNat := by rw [es, addr hin]
      refine (iset_does o1 ?_ (by rw [ea]; exact hA.cell _ _ hin) ?_).mono ?_
      · have := hA.plain _ _ hin
        rw [BitVec.ofNat_toNat, BitVec.setWidth_eq] at this
        rw [es]; exact this
      · rw [ea]
        intro h
        exact (o5 _ h).2.2 _ _ hin rfl
      rintro s' ⟨h1, h2⟩
      rw [ea, hI.el _ _ hin, valM_in hI.u o4] at h1
      rw [ea] at h2
      refine ⟨fun k' i' h => ?_, ?_, ?_, fun y hy => ?_⟩
      · simp only
        split
        · rename_i hk
          obtain ⟨rfl, rfl⟩ := hk
          exact h1
        · rename_i hk
          refine (h2 _ ?_).trans (hI.el _ _ h)
          intro hm
          rcases List.mem_cons.1 hm with hm | hm
          · exact hk (hA.inj _ _ _ _ h hin hm)
          · exact (o5 _ hm).2.2 _ _ h rfl
      · refine (h2 _ ?_).trans hI.md
        intro hm
        rcases List.mem_cons.1 hm with hm | hm
        · exact hA.rdn _ _ hin (hm ▸ cp352)
        · exact (o5 _ hm).2.1 cp352
      · refine (h2 _ ?_).trans hI.z
        intro hm
        rcases List.mem_cons.1 hm with hm | hm
        · exact hA.rdn _ _ hin (hm ▸ rd348)
        · exact (o5 _ hm).2.1 rd348
      · refine (h2 _ ?_).trans (hI.u y hy)
        intro hm
        rcases List.mem_cons.1 hm with hm | hm
        · exact hA.un _ _ hin (hm ▸ hy)
        · exact (o5 _ hm).1 hy
    · cases hs

/-- **C42 (EUDArray).** Any history of reads, writes, additions and subtractions of elements of any number of arrays, with constant and variable arrays, indices and values, gives the
results of independent elements: a read gets what was last put there, and a write changes this element only. -/
theorem C42_array {L : Layout} {A : Arrs} (hA : A.Ok L) :
    ∀ (ops : List ArrOp) (s : Mem) (a a' : (Nat → Nat → W) × Mem), (∀ op ∈ ops, op.Ok L A) → ArrIs A s a → ArrOp.run A ops a = some a' →
      Does L (.seqs (ops.map (ArrOp.stmt L A))) s fun s' => ArrIs A s' a'
  | [], s, a, a', _, hI, h => by
    simp only [ArrOp.run, Option.some.injEq] at h
    subst h
    exact Does.skip hI
  | op :: ops, s, a, a', hop, hI, h => by
    simp only [ArrOp.run, Option.bind_eq_some_iff] at h
    obtain ⟨a1, h1, h2⟩ := h
    exact Does.seq ((arrStep hA (hop op (by simp)) hI h1).mono fun s' h' => C42_array hA ops s' a1 a' (fun op ho => hop op (by simp [ho])) h' h2)

end Eud.SC
