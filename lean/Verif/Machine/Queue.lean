import Verif.Machine.Redir
/-
Triggers that prepare variables ("queue" them) and then run through them.

Hand-written code of eudplib (mathf/div.py, memio/*.py) sets destination, modifier and next pointer of variables, and next pointers
of triggers, at places of its own choice, and sometimes leaves out what is known already.  `QS` is what is known at one point of such
code: redirected triggers `d`, book-keeping of variables `K`, and the visible memory `s`.
-/

namespace Eud.SC

/-- What is known about a variable: its next pointer, its destination dword and its modifier. -/
structure VK where
  nxt : Option Nat
  dst : Option W
  md : Option Mod

def VK.none : VK := ⟨.none, .none, .none⟩

abbrev KB := Nat → VK

def KB.none : KB := fun _ => VK.none

def KB.up (K : KB) (v : Nat) (f : VK → VK) : KB := fun u => if u = v then f (K u) else K u

theorem KB.up_eq (K : KB) (v : Nat) (f : VK → VK) : K.up v f v = f (K v) := if_pos rfl
theorem KB.up_ne (K : KB) {u v : Nat} (h : u ≠ v) (f : VK → VK) : K.up v f u = K u := if_neg h

/-- The book-keeping of the variables is as known. -/
structure Layout.Known (L : Layout) (K : KB) (m : Mem) : Prop where
  nxt : ∀ v ∈ L.P.vars, ∀ n, (K v).nxt = some n → m (v + 4) = BitVec.ofNat 32 n
  dst : ∀ v ∈ L.P.vars, ∀ w, (K v).dst = some w → m (v + 344) = w
  md : ∀ v ∈ L.P.vars, ∀ x, (K v).md = some x → varMod m v = some x

theorem Layout.Known.none (L : Layout) (m : Mem) : L.Known KB.none m :=
  ⟨fun _ _ _ h => (by cases h), fun _ _ _ h => (by cases h), fun _ _ _ h => (by cases h)⟩

theorem Layout.Known.congr {L : Layout} {K : KB} {m m' : Mem} (h : L.Known K m)
    (hc : ∀ v ∈ L.P.vars, m' (v + 4) = m (v + 4) ∧ m' (v + 344) = m (v + 344) ∧ m' (v + 352) = m (v + 352)) : L.Known K m' := by
  refine ⟨fun v hv n e => ?_, fun v hv w e => ?_, fun v hv x e => ?_⟩
  · rw [(hc v hv).1]; exact h.nxt v hv n e
  · rw [(hc v hv).2.1]; exact h.dst v hv w e
  · have := h.md v hv x e
    unfold varMod at this ⊢
    rw [(hc v hv).2.2]; exact this

/-- Writing a visible dword keeps what is known. -/
theorem Layout.Known.set {L : Layout} {K : KB} {m : Mem} (h : L.Known K m) {x : Nat} (hx : ¬ L.priv x) (w : W) : L.Known K (m.set x w) := by
  refine h.congr fun v hv => ⟨set_ne ?_, set_ne ?_, set_ne ?_⟩
  · exact fun e => hx (e ▸ Layout.Wf.priv4 hv)
  · exact fun e => hx (e ▸ Layout.Wf.priv344 hv)
  · exact fun e => hx (e ▸ Layout.Wf.priv352 hv)

/-- A point of the execution. -/
structure QS where
  d : List (Nat × Nat)
  K : KB
  s : Mem

/-- The memory is as described. -/
structure Layout.At (L : Layout) (q : QS) (m : Mem) : Prop where
  ok : (L.redir q.d).Ok m
  kn : L.Known q.K m
  vw : L.view m = q.s
  lt : ∀ p ∈ q.d, p.2 < 2 ^ 32

/-- The machine gets from one point to another. -/
def Layout.Steps (L : Layout) (q : QS) (t : Nat) (q' : QS) (t' : Nat) : Prop :=
  ∀ m, L.At q m → ∃ m', Reaches ⟨m, t⟩ ⟨m', t'⟩ ∧ L.At q' m'

theorem Layout.Steps.refl (L : Layout) (q : QS) (t : Nat) : L.Steps q t q t := fun m h => ⟨m, Reaches.refl _, h⟩

theorem Layout.Steps.trans {L : Layout} {q1 q2 q3 : QS} {t1 t2 t3 : Nat} (h : L.Steps q1 t1 q2 t2) (g : L.Steps q2 t2 q3 t3) :
    L.Steps q1 t1 q3 t3 := by
  intro m hm
  obtain ⟨m2, r2, o2⟩ := h m hm
  obtain ⟨m3, r3, o3⟩ := g m2 o2
  exact ⟨m3, r2.trans r3, o3⟩

/-- Code that ends with all its triggers at rest. -/
theorem Layout.Steps.runs {L : Layout} (hw : L.Wf) {s s' : Mem} {t t' : Nat} {d : List (Nat × Nat)} {K : KB}
    (h : L.Steps ⟨[], KB.none, s⟩ t ⟨d, K, s'⟩ t') (hd : ∀ x y, d.lookup x = some y → (x, y) ∈ L.rest) : L.Runs s t s' t' := by
  intro m hm hv
  obtain ⟨m', r, a⟩ := h m ⟨by rw [Layout.redir_nil]; exact hm, Layout.Known.none _ _, hv, by simp⟩
  have := a.ok
  simp only [Layout.redir_same hw hd] at this
  exact ⟨m', r, this, a.vw⟩

/-- What ordinary code does, as long as nothing needs to be known about variables afterwards. -/
theorem Layout.Runs.steps {L : Layout} {s s' : Mem} {t t' : Nat} (h : L.Runs s t s' t') (K : KB) :
    L.Steps ⟨[], K, s⟩ t ⟨[], KB.none, s'⟩ t' := by
  intro m hm
  have := hm.ok
  simp only [Layout.redir_nil] at this
  obtain ⟨m', r, o, v⟩ := h m this hm.vw
  exact ⟨m', r, ⟨by rw [Layout.redir_nil]; exact o, Layout.Known.none _ _, v, by simp⟩⟩

/-! ## Actions -/

inductive QA
  /-- an action on visible dwords -/
  | cell (p : PA)
  /-- `SetNextPtr` of a trigger -/
  | next (t n : Nat)
  /-- `SetNextPtr` of a variable -/
  | vnext (v n : Nat)
  /-- eudv.py:202-204 `SetDest` -/
  | dest (v : Nat) (w : W)
  /-- eudv.py:230-236 `SetModifier` -/
  | modi (v : Nat) (md : Mod)

def QA.act : QA → SAct
  | .cell p => p.a
  | .next t n => sNext t n
  | .vnext v n => sNext v n
  | .dest v w => sMem (v + 344) .set w
  | .modi v md => sModi v md

def QA.run : QA → QS → QS
  | .cell p, q => { q with s := p.run q.s }
  | .next t n, q => { q with d := (t, n) :: q.d }
  | .vnext v n, q => { q with K := q.K.up v fun k => { k with nxt := some n } }
  | .dest v w, q => { q with K := q.K.up v fun k => { k with dst := some w } }
  | .modi v md, q => { q with K := q.K.up v fun k => { k with md := some md } }

def QA.Ok (L : Layout) : QA → QS → Prop
  | .cell p, q => p.a.Ready q.s (p.pos.getD 0) ∧ L.cell ((p.a.res q.s (p.pos.getD 0)).dst.addr q.s)
  | .next t n, _ => (∃ c, (t, c) ∈ L.rest) ∧ n < 2 ^ 32
  | .vnext v n, _ => v ∈ L.P.vars ∧ n < 2 ^ 32
  | .dest v _, _ => v ∈ L.P.vars
  | .modi v _, _ => v ∈ L.P.vars

def runQA : List QA → QS → QS
  | [], q => q
  | a :: as, q => runQA as (a.run q)

def QActsOk (L : Layout) : List QA → QS → Prop
  | [], _ => True
  | a :: as, q => a.Ok L q ∧ QActsOk L as (a.run q)

/-- The actions sit at `x`, `x + 32`, ... -/
def PlacedQ : Nat → List QA → Prop
  | _, [] => True
  | x, .cell p :: as => (match p.pos with | some y => y = x | none => p.a.static) ∧ PlacedQ (x + 32) as
  | x, _ :: as => PlacedQ (x + 32) as

theorem Layout.view_redir_priv {L : Layout} {m : Mem} {x : Nat} {w : W} (h : L.priv x) : L.view (m.set x w) = L.view m := Layout.view_priv h

theorem Layout.At.next {L : Layout} (hw : L.Wf) {q : QS} {m : Mem} (h : L.At q m) {t n c : Nat} (ht : (t, c) ∈ L.rest) (hn : n < 2 ^ 32) :
    L.At ((QA.next t n).run q) (m.set (t + 4) (BitVec.ofNat 32 n)) := by
  refine ⟨h.ok.redir_set hw ht n, ?_, ?_, ?_⟩
  · refine h.kn.congr fun v hv => ?_
    obtain ⟨-, r2, r3⟩ := hw.rsep _ ht v hv
    refine ⟨set_ne (Ne.symm r2), set_ne (Ne.symm r3), set_ne ?_⟩
    exact Ne.symm ((hw.rdat _ ht).2 v hv)
  · exact (Layout.view_priv (Layout.Wf.privR ht)).trans h.vw
  · intro p hp
    simp only [QA.run, List.mem_cons] at hp
    exact hp.elim (fun e => e ▸ hn) (h.lt p)

theorem Layout.At.vnext {L : Layout} (hw : L.Wf) {q : QS} {m : Mem} (h : L.At q m) {v n : Nat} (hv : v ∈ L.P.vars) :
    L.At ((QA.vnext v n).run q) (m.set (v + 4) (BitVec.ofNat 32 n)) := by
  have hwd := hw.redir h.lt
  obtain ⟨o4, o20, o328, o344, o348, o352, o356, o384, o2376⟩ := offs_mem
  refine ⟨h.ok.set4 hwd hv _, ⟨?_, ?_, ?_⟩, (Layout.view_priv (Layout.Wf.priv4 hv)).trans h.vw, h.lt⟩
  · intro u hu k e
    by_cases huv : u = v
    · subst huv
      simp only [QA.run, KB.up_eq, Option.some.injEq] at e
      rw [set_eq, e]
    · simp only [QA.run, KB.up_ne _ huv] at e
      rw [set_ne (by omega)]
      exact h.kn.nxt u hu k e
  · intro u hu k e
    rw [set_ne (hw.P.sep u hu v hv 344 o344 4 o4 (by omega))]
    refine h.kn.dst u hu k ?_
    by_cases huv : u = v
    · subst huv; simpa only [QA.run, KB.up_eq] using e
    · simpa only [QA.run, KB.up_ne _ huv] using e
  · intro u hu k e
    have : (q.K u).md = some k := by
      by_cases huv : u = v
      · subst huv; simpa only [QA.run, KB.up_eq] using e
      · simpa only [QA.run, KB.up_ne _ huv] using e
    have := h.kn.md u hu k this
    unfold varMod at this ⊢
    rw [set_ne (hw.P.sep u hu v hv 352 o352 4 o4 (by omega))]
    exact this

theorem Layout.At.dest {L : Layout} (hw : L.Wf) {q : QS} {m : Mem} (h : L.At q m) {v : Nat} {w : W} (hv : v ∈ L.P.vars) :
    L.At ((QA.dest v w).run q) (m.set (v + 344) w) := by
  have hwd := hw.redir h.lt
  obtain ⟨o4, o20, o328, o344, o348, o352, o356, o384, o2376⟩ := offs_mem
  refine ⟨h.ok.set344 hwd hv _, ⟨?_, ?_, ?_⟩, (Layout.view_priv (Layout.Wf.priv344 hv)).trans h.vw, h.lt⟩
  · intro u hu k e
    rw [set_ne (hw.P.sep u hu v hv 4 o4 344 o344 (by omega))]
    refine h.kn.nxt u hu k ?_
    by_cases huv : u = v
    · subst huv; simpa only [QA.run, KB.up_eq] using e
    · simpa only [QA.run, KB.up_ne _ huv] using e
  · intro u hu k e
    by_cases huv : u = v
    · subst huv
      simp only [QA.run, KB.up_eq, Option.some.injEq] at e
      rw [set_eq, e]
    · simp only [QA.run, KB.up_ne _ huv] at e
      rw [set_ne (by omega)]
      exact h.kn.dst u hu k e
  · intro u hu k e
    have : (q.K u).md = some k := by
      by_cases huv : u = v
      · subst huv; simpa only [QA.run, KB.up_eq] using e
      · simpa only [QA.run, KB.up_ne _ huv] using e
    have := h.kn.md u hu k this
    unfold varMod at this ⊢
    rw [set_ne (hw.P.sep u hu v hv 352 o352 344 o344 (by omega))]
    exact this

theorem Layout.At.modi {L : Layout} (hw : L.Wf) {q : QS} {m : Mem} (h : L.At q m) {v : Nat} {md : Mod} (hv : v ∈ L.P.vars) :
    L.At ((QA.modi v md).run q) (m.set (v + 352) (modWord (m (v + 352)) md)) := by
  have hwd := hw.redir h.lt
  obtain ⟨o4, o20, o328, o344, o348, o352, o356, o384, o2376⟩ := offs_mem
  refine ⟨h.ok.setMod hwd hv _, ⟨?_, ?_, ?_⟩, (Layout.view_priv (Layout.Wf.priv352 hv)).trans h.vw, h.lt⟩
  · intro u hu k e
    rw [set_ne (hw.P.sep u hu v hv 4 o4 352 o352 (by omega))]
    refine h.kn.nxt u hu k ?_
    by_cases huv : u = v
    · subst huv; simpa only [QA.run, KB.up_eq] using e
    · simpa only [QA.run, KB.up_ne _ huv] using e
  · intro u hu k e
    rw [set_ne (hw.P.sep u hu v hv 344 o344 352 o352 (by omega))]
    refine h.kn.dst u hu k ?_
    by_cases huv : u = v
    · subst huv; simpa only [QA.run, KB.up_eq] using e
    · simpa only [QA.run, KB.up_ne _ huv] using e
  · intro u hu k e
    by_cases huv : u = v
    · subst huv
      simp only [QA.run, KB.up_eq, Option.some.injEq] at e
      subst e
      exact varMod_modWord (set_eq _ _ _)
    · simp only [QA.run, KB.up_ne _ huv] at e
      have := h.kn.md u hu k e
      unfold varMod at this ⊢
      rw [set_ne (by omega)]
      exact this

theorem Layout.At.cell {L : Layout} {q : QS} {m : Mem} (h : L.At q m) {x : Nat} (hx : L.cell x) (w : W) :
    L.At { q with s := q.s.set x w } (m.set x w) := by
  refine ⟨h.ok.set ((Layout.redir_cell L q.d x).2 hx) w, h.kn.set hx.2 w, ?_, h.lt⟩
  rw [Layout.view_set hx.2, h.vw]

/-- The actions of a trigger, one after the other. -/
theorem Layout.At.acts {L : Layout} (hw : L.Wf) : ∀ (as : List QA) (x : Nat) (q : QS) (m : Mem), L.At q m →
    (∀ o, o < 32 * as.length → ¬ L.priv (x + o)) → PlacedQ x as → QActsOk L as q →
    L.P.Acts (as.map QA.act) x m ∧ L.At (runQA as q) (runS (as.map QA.act) x m)
  | [], _, _, m, h, _, _, _ => ⟨trivial, h⟩
  | a :: as, x, q, m, h, hp, hpl, ⟨ho, hr⟩ => by
    have hp' : ∀ o, o < 32 * as.length → ¬ L.priv (x + 32 + o) := fun o ho => by
      have := hp (32 + o) (by simp; omega)
      rwa [← Nat.add_assoc] at this
    cases a with
    | cell p =>
      obtain ⟨hl1, hl2⟩ := hpl
      obtain ⟨h1, h2⟩ := ho
      have e0 := SAct.res_view (L := L) (m := m) p.a (by simpa using hp 0 (by simp)) (hp 16 (by simp; omega)) (hp 20 (by simp; omega))
      have e1 : p.a.res q.s x = p.a.res q.s (p.pos.getD 0) := by
        cases hpp : p.pos with
        | some y => rw [hpp] at hl1; simp only at hl1; subst hl1; rfl
        | none => rw [hpp] at hl1; exact SAct.static_res hl1 _ _ _
      have e2 : p.a.res m x = p.a.res q.s (p.pos.getD 0) := by rw [← e0, h.vw, e1]
      have ead : (p.a.res m x).dst.addr m = (p.a.res q.s (p.pos.getD 0)).dst.addr q.s := by
        rw [e2, ← h.vw, Dst.addr_view hw.cp]
      have hcell : L.cell ((p.a.res m x).dst.addr m) := by rw [ead]; exact h2
      have hap : (p.a.res m x).apply m = m.set ((p.a.res q.s (p.pos.getD 0)).dst.addr q.s)
          (modify (p.a.res q.s (p.pos.getD 0)).mod (q.s ((p.a.res q.s (p.pos.getD 0)).dst.addr q.s))
            (p.a.res q.s (p.pos.getD 0)).val (p.a.res q.s (p.pos.getD 0)).mask) := by
        unfold Act.apply
        simp only [ead]
        rw [e2, ← h.vw, Layout.view_at (by rw [h.vw]; exact h2.2)]
      have hrun : (QA.cell p).run q = ⟨q.d, q.K, q.s.set ((p.a.res q.s (p.pos.getD 0)).dst.addr q.s)
          (modify (p.a.res q.s (p.pos.getD 0)).mod (q.s ((p.a.res q.s (p.pos.getD 0)).dst.addr q.s))
            (p.a.res q.s (p.pos.getD 0)).val (p.a.res q.s (p.pos.getD 0)).mask)⟩ := rfl
      have h' : L.At ((QA.cell p).run q) ((p.a.res m x).apply m) := by
        rw [hap, hrun]; exact h.cell h2 _
      obtain ⟨i1, i2⟩ := Layout.At.acts hw as (x + 32) _ _ h' hp' hl2 hr
      refine ⟨⟨?_, hcell.okw _ _, i1⟩, i2⟩
      intro hd
      have := h1 hd
      cases hpp : p.pos with
      | none =>
        rw [hpp] at hl1
        have := hl1.1
        simp [show (QA.cell p).act = p.a from rfl] at hd
        rw [hd] at this; cases this
      | some y =>
        rw [hpp] at hl1 this
        simp only at hl1
        subst hl1
        rw [← h.vw] at this
        simp only [Option.getD_some] at this
        rwa [Layout.view_at (hp 16 (by simp; omega))] at this
    | next t n =>
      obtain ⟨⟨c, hc⟩, hn⟩ := ho
      obtain ⟨i1, i2⟩ := Layout.At.acts hw as (x + 32) _ _ (h.next hw hc hn) hp' hpl hr
      refine ⟨Prog.acts_next (hw.rdat _ hc) i1, ?_⟩
      simp only [List.map_cons, runS, QA.act, sNext_apply]
      exact i2
    | vnext v n =>
      obtain ⟨hv, hn⟩ := ho
      obtain ⟨i1, i2⟩ := Layout.At.acts hw as (x + 32) _ _ (h.vnext hw hv (n := n)) hp' hpl hr
      refine ⟨Prog.acts_nextv hw.P hv i1, ?_⟩
      simp only [List.map_cons, runS, QA.act, sNext_apply]
      exact i2
    | dest v w =>
      obtain ⟨i1, i2⟩ := Layout.At.acts hw as (x + 32) _ _ (h.dest hw ho (w := w)) hp' hpl hr
      refine ⟨Prog.acts_mem (hw.P.data ho (by simp)) (by simpa [arith] using i1), ?_⟩
      simp only [List.map_cons, runS, QA.act, sMem_apply, arith]
      exact i2
    | modi v md =>
      obtain ⟨i1, i2⟩ := Layout.At.acts hw as (x + 32) _ _ (h.modi hw ho (md := md)) hp' hpl hr
      refine ⟨Prog.acts_modi hw.P ho i1, ?_⟩
      simp only [List.map_cons, runS, QA.act, sModi_apply]
      exact i2

/-! ## Triggers and variables -/

/-- Where a trigger goes: its fixed next pointer, or its next pointer at present. -/
def nextAt (L : Layout) (b : SBlk) (d : List (Nat × Nat)) (n : Nat) : Prop :=
  match b.next with
  | some n' => n = n'
  | none => ∃ c, (b.t, c) ∈ L.rest ∧ n = (d.lookup b.t).getD c

/-- A trigger of hand-written code. -/
theorem Layout.Steps.trig {L : Layout} (hw : L.Wf) {t n : Nat} {cs : List PC} {as : List QA} {nx : Option Nat}
    (hb : (⟨t, ⟨cs.map PC.c, as.map QA.act⟩, nx, false⟩ : SBlk) ∈ L.P.blks) (hpc : PlacedC (t + 8) cs) (hpa : PlacedQ (t + 328) as)
    {q : QS} (hc : ∀ p ∈ cs, p.Ok L q.s) (ha : holdsAll q.s cs = true → QActsOk L as q)
    (hn : nextAt L ⟨t, ⟨cs.map PC.c, as.map QA.act⟩, nx, false⟩ (if holdsAll q.s cs then runQA as q else q).d n) :
    L.Steps q t (if holdsAll q.s cs then runQA as q else q) n := by
  intro m hm
  have hbl := hm.ok.prog.blks _ hb
  have hwd := hw.redir hm.lt
  obtain ⟨p1, p2⟩ := hpc.spec (L := L) (s := q.s)
  have hcn := p2 hc
  rw [← hm.vw] at hcn p1
  obtain ⟨c1, c2⟩ := Layout.cnds_run hw.cp (cs.map PC.c) (t + 8) m (fun o ho' => by
    rw [Nat.add_assoc]; exact hw.blk _ hb _ (by omega) (by have := hbl.cl; simp only at this; omega)) hcn
  have hcond : condsS m (cs.map PC.c) (t + 8) = holdsAll q.s cs := by rw [c2, p1, hm.vw]
  have ha' : holdsAll q.s cs = true → _ := fun h => Layout.At.acts hw as (t + 328) q m hm (fun o ho' => by
    rw [Nat.add_assoc]; exact hw.blk _ hb _ (by omega) (by have := hbl.al; simp only [List.length_map] at this; omega)) hpa (ha h)
  have hs := hm.ok.prog.step hb rfl c1 (fun h => (ha' (hcond ▸ h)).1)
  simp only [SBlk.exec, hcond] at hs
  have hat : L.At (if holdsAll q.s cs then runQA as q else q)
      (if holdsAll q.s cs = true then runS (as.map QA.act) (t + 328) m else m) := by
    by_cases hh : holdsAll q.s cs = true
    · rw [if_pos hh, if_pos hh]; exact (ha' hh).2
    · rw [if_neg hh, if_neg hh]; exact hm
  refine ⟨_, ?_, hat⟩
  have h1 := hs.1
  cases nx with
  | some n' =>
    simp only [nextAt] at hn
    subst hn
    exact Reaches.step (hm.ok.prog.step_next hb rfl rfl c1 (fun h => (ha' (hcond ▸ h)).1) |>.1 |> fun e => by
      simpa only [SBlk.exec, hcond] using e)
  | none =>
    obtain ⟨c, hc1, rfl⟩ := hn
    have hr := hat.ok.rest _ (Layout.redir_mem' hc1)
    have hlt := (hw.redir hat.lt).rlt _ (Layout.redir_mem' hc1)
    simp only at hr hlt
    rw [hr, BitVec.toNat_ofNat, Nat.mod_eq_of_lt hlt] at h1
    exact Reaches.step h1

/-- A variable does its action on a visible dword. -/
theorem Layout.Steps.var {L : Layout} (hw : L.Wf) {q : QS} {v n : Nat} (hv : v ∈ L.P.vars) (hn : (q.K v).nxt = some n) (hlt : n < 2 ^ 32)
    {w : W} (hd : (q.K v).dst = some w) {d : Dst} (hdd : dstOf w 0 = some d) (hc : L.cell (d.addr q.s)) {md : Mod} (hmd : (q.K v).md = some md) :
    L.Steps q v { q with s := q.s.set (d.addr q.s) (arith md (q.s (d.addr q.s)) (q.s (v + 348))) } n := by
  intro m hm
  have hat := hm.cell hc (arith md (q.s (d.addr q.s)) (q.s (v + 348)))
  have ead : d.addr m = d.addr q.s := by rw [← hm.vw, Dst.addr_view hw.cp]
  have hf : ∀ x, varStatic v x → x ≠ d.addr q.s := fun x hx hxa => (hc.okw 0 0).1 (hxa ▸ Or.inr (Or.inr ⟨v, hv, hx⟩))
  have h4 : v + 4 ≠ d.addr q.s := fun e => hc.2 (e ▸ Layout.Wf.priv4 hv)
  have hs := Eud.SC.step_var (hm.ok.prog.vars v hv) (hm.kn.md v hv md hmd)
    (d := d) (by unfold varDst; rw [hm.kn.dst v hv w hd]; exact hdd)
    (by rw [ead]; exact ⟨fun e => hf (v + 384) (Or.inr (Or.inr (Or.inl rfl))) e.symm, fun e => hf (v + 2376) (Or.inr (Or.inr (Or.inr rfl))) e.symm⟩)
  have e1 : (varAct m v md d).apply m = m.set (d.addr q.s) (arith md (q.s (d.addr q.s)) (q.s (v + 348))) := by
    simp only [varAct, Act.apply, ead]
    rw [hm.ok.mask v hv, modify_full]
    rw [← hm.vw, Layout.view_at (by rw [hm.vw]; exact hc.2), Layout.view_at (hw.val v hv)]
  rw [e1, set_ne h4, hm.kn.nxt v hv n hn, BitVec.toNat_ofNat, Nat.mod_eq_of_lt hlt] at hs
  exact ⟨_, Reaches.step hs, hat⟩

theorem dstOf_thirteen : dstOf 13 0 = some (.cp 0) := by decide +kernel

/-- A variable stores its value as the destination of another one. -/
theorem Layout.Steps.varDest {L : Layout} (hw : L.Wf) {q : QS} {v u n : Nat} (hv : v ∈ L.P.vars) (hu : u ∈ L.P.vars) (hn : (q.K v).nxt = some n)
    (hlt : n < 2 ^ 32) (hd : (q.K v).dst = some (epd (u + 344))) (he : EpdOK (u + 344)) (hmd : (q.K v).md = some .set) :
    L.Steps q v { q with K := q.K.up u fun k => { k with dst := some (q.s (v + 348)) } } n := by
  intro m hm
  obtain ⟨o4, o20, o328, o344, o348, o352, o356, o384, o2376⟩ := offs_mem
  have hat := hm.dest hw hu (w := q.s (v + 348))
  have hs := (hm.ok.prog.step_var hv (hm.kn.md v hv _ hmd) (hm.kn.dst v hv _ hd) he (hm.kn.nxt v hv n hn) hlt
    ((hw.P.data hu (by simp)).okw _ _) (hw.P.sep u hu v hv 344 o344 4 o4 (by omega))).1
  rw [hm.ok.mask v hv, modify_full] at hs
  refine ⟨_, Reaches.step hs, ?_⟩
  have : m (v + 348) = q.s (v + 348) := by rw [← hm.vw, Layout.view_at (hw.val v hv)]
  simp only [arith, this]
  exact hat

end Eud.SC
