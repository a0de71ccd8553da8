import Verif.Lib.ByteSeek
/-
C37: any history of reads, writes and seeks by any number of `EUDByteReader`s and `EUDByteWriter`s, mixed with assignments of the user (memio/byterw.py).
-/

namespace Eud.SC

/-! ## Specification -/

/-- The positions of the readers and writers, and the memory of the user. -/
structure BSt where
  rp : Nat → Nat
  wp : Nat → Nat
  m : Mem

def upd (f : Nat → Nat) (i p : Nat) : Nat → Nat := fun k => if k = i then p else f k

/-- What the user does: reader or writer `i`; values are constants or variables. -/
inductive BOp where
  /-- an assignment -/
  | asg (a : Nat) (md : Mod) (x : Src)
  /-- `readers[i].readbyte(ret=o)` -/
  | read (i o : Nat)
  /-- `writers[i].writebyte(x)` with a variable -/
  | writeV (i : Nat) (x : Src)
  /-- `writers[i].writebyte(b)` with a number -/
  | writeC (i b : Nat)
  /-- `readers[i].seekoffset(p)` with a number -/
  | rseekC (i p : Nat)
  /-- `readers[i].seekoffset(x)` with a variable -/
  | rseekV (i : Nat) (x : Src)
  /-- `readers[i].seekepd(e, subp=k)` -/
  | rseekE (i : Nat) (e : Src) (k : Nat)
  /-- the same of writers -/
  | wseekC (i p : Nat)
  | wseekV (i : Nat) (x : Src)
  | wseekE (i : Nat) (e k : Src)

/-- What it means. -/
def BOp.spec : BOp → BSt → BSt
  | asg a md x, σ => { σ with m := σ.m.set a (arith md (σ.m a) (x.valM σ.m)) }
  | read i o, σ => { σ with m := σ.m.set o ((byteAt σ.m (σ.rp i)).setWidth 32), rp := upd σ.rp i (nextB (σ.rp i)) }
  | writeV i x, σ => { σ with m := putByte σ.m (σ.wp i) ((x.valM σ.m).setWidth 8), wp := upd σ.wp i (nextB (σ.wp i)) }
  | writeC i b, σ => { σ with m := putByte σ.m (σ.wp i) (BitVec.ofNat 8 b), wp := upd σ.wp i (nextB (σ.wp i)) }
  | rseekC i p, σ => { σ with rp := upd σ.rp i p }
  | rseekV i x, σ => { σ with rp := upd σ.rp i (x.valM σ.m).toNat }
  | rseekE i e k, σ => { σ with rp := upd σ.rp i (epdAddr (e.valM σ.m) + k) }
  | wseekC i p, σ => { σ with wp := upd σ.wp i p }
  | wseekV i x, σ => { σ with wp := upd σ.wp i (x.valM σ.m).toNat }
  | wseekE i e k, σ => { σ with wp := upd σ.wp i (epdAddr (e.valM σ.m) + (k.valM σ.m).toNat) }

/-! ## The objects -/

/-- The shared parts, the readers and the writers with their methods `_seekoffset`; `rbk` and `wbk` are the places in these methods after the division. -/
structure BCfg where
  rend : Nat
  cpc : Nat
  ev3 : Nat
  D : Div4
  nr : Nat
  nw : Nat
  R : Nat → BRd
  RM : Nat → Meth
  rbk : Nat → Nat
  W : Nat → BWr
  WM : Nat → Meth
  wbk : Nat → Nat

/-- An object: the shared parts, a reader or a writer. -/
inductive BO where
  | com
  | rd (i : Nat)
  | wr (i : Nat)

namespace BCfg
variable (G : BCfg)

def ok : BO → Prop
  | .com => True
  | .rd i => i < G.nr
  | .wr i => i < G.nw

/-- The dwords of an object. -/
def own : BO → List Nat
  | .com => [G.rend + 4, G.rend + 344, G.rend + 348, G.cpc + 4, G.cpc + 344, G.cpc + 348, G.cpc + 352, cpAddr, G.ev3 + 348, G.D.np, G.D.q + 4, G.D.a + 4, G.D.q + 344, G.D.a + 344, G.D.a + 348, G.D.q + 348]
  | .rd i => [(G.R i).rd + 4, (G.R i).rd + 348, (G.RM i).np, (G.RM i).off + 348]
  | .wr i => [(G.W i).np, (G.W i).v + 348, (G.W i).v + 4, (G.W i).v + 344, (G.W i).wr + 328, (G.W i).wr + 344, (G.W i).wr + 348, (G.W i).sub, (G.W i).v + 352,
      (G.W i).c 0 + 348, (G.W i).c 1 + 348, (G.W i).c 2 + 348, (G.W i).c 3 + 348, (G.WM i).np, (G.WM i).off + 348]

/-- Dwords of the objects: the user must leave them alone. -/
def Int (x : Nat) : Prop := ∃ b, G.ok b ∧ x ∈ G.own b

/-- The triggers of the objects are in place. -/
structure Ok (L : Layout) (G : BCfg) (br : Nat → Nat) : Prop where
  wf : L.Wf
  cel : ∀ x, G.Int x → L.cell x
  nd : ∀ b, G.ok b → (G.own b).Nodup
  sep : ∀ a b, G.ok a → G.ok b → a ≠ b → ∀ x ∈ G.own a, x ∉ G.own b
  pc : PVar L G.cpc
  div : Div4Ok L G.D
  eev : EpdOK (G.ev3 + 348)
  rd : ∀ i < G.nr, BRdOk L G.rend (G.R i) br
  rme : ∀ i < G.nr, EpdOK ((G.R i).rd + 348) ∧ (G.RM i).off ∈ L.P.vars ∧ G.rbk i < 2 ^ 32
  rmf : ∀ i < G.nr, FuncCode L (G.RM i).fs (G.RM i).fe (G.RM i).np [] (brSeekBody L G.D (G.rbk i) G.ev3 (G.R i) (G.RM i).off)
  wv : ∀ i < G.nw, PVar L (G.W i).v
  wme : ∀ i < G.nw, EpdOK ((G.W i).wr + 344) ∧ EpdOK ((G.W i).wr + 348) ∧ EpdOK (G.W i).sub ∧ (G.WM i).off ∈ L.P.vars ∧ G.wbk i < 2 ^ 32
  wf' : ∀ i < G.nw, ∃ fs, FuncCode L fs (G.W i).fe (G.W i).np [] (bwBody L (G.W i))
  wmf : ∀ i < G.nw, FuncCode L (G.WM i).fs (G.WM i).fe (G.WM i).np [] (bwSeekBody L G.D (G.wbk i) (G.W i) (G.WM i).off)

end BCfg

/-- The statement of an operation that goes on at `n`. -/
def BOp.stmt (L : Layout) (G : BCfg) (n : Nat) : BOp → Stmt
  | asg a md x => .asg [⟨a, md, x⟩]
  | read i o => .prim (BReadRel L G.rend G.cpc (G.R i) n o)
  | writeV i x => bwCall L (G.W i) n x
  | writeC i b => .prim (BWConstRel L (G.W i) n b)
  | rseekC i p => brSeekC (G.R i) p
  | rseekV i x => brSeekV L G.D (G.rbk i) G.ev3 n (G.R i) (G.RM i) x
  | rseekE i e k => brSeekEpd (G.R i) e k
  | wseekC i p => bwSeekC (G.W i) p
  | wseekV i x => bwSeekV L G.D (G.wbk i) n (G.W i) (G.WM i) x
  | wseekE i e k => bwSeekEpd (G.W i) e k

/-- A source of the user. -/
def SrcB (L : Layout) (G : BCfg) (x : Src) : Prop := ∀ v, x = .var v → v ∈ L.P.vars ∧ ¬ G.Int (v + 348)

/-- When an operation may be used: the dword at the position is in memory that the game can read or write, and does not belong to the objects. -/
def BOp.Ok (L : Layout) (G : BCfg) : BOp → BSt → Prop
  | asg a _ x, _ => L.cell a ∧ ¬ G.Int a ∧ SrcB L G x
  | read i o, σ => i < G.nr ∧ L.cell o ∧ EpdOK o ∧ ¬ G.Int o ∧ ¬ L.priv (σ.rp i / 4 * 4) ∧ ¬ G.Int (σ.rp i / 4 * 4)
  | writeV i x, σ => i < G.nw ∧ SrcB L G x ∧ EpdOK (σ.wp i / 4 * 4) ∧ L.cell (σ.wp i / 4 * 4) ∧ ¬ G.Int (σ.wp i / 4 * 4)
  | writeC i _, σ => i < G.nw ∧ EpdOK (σ.wp i / 4 * 4) ∧ L.cell (σ.wp i / 4 * 4) ∧ ¬ G.Int (σ.wp i / 4 * 4)
  | rseekC i p, _ => i < G.nr ∧ p < 2 ^ 32
  | rseekV i x, _ => i < G.nr ∧ SrcB L G x
  | rseekE i e k, _ => i < G.nr ∧ SrcB L G e ∧ k < 4
  | wseekC i p, _ => i < G.nw ∧ p < 2 ^ 32
  | wseekV i x, _ => i < G.nw ∧ SrcB L G x
  | wseekE i e k, σ => i < G.nw ∧ SrcB L G e ∧ SrcB L G k ∧ (k.valM σ.m).toNat < 4

/-- The machine is in the state `σ`, with the current player `cp`. -/
structure BRep (G : BCfg) (cp : W) (σ : BSt) (s : Mem) : Prop where
  rd : ∀ i < G.nr, (G.R i).At s (σ.rp i) ∧ σ.rp i < 2 ^ 32
  wr : ∀ i < G.nw, (G.W i).At s (σ.wp i) ∧ σ.wp i < 2 ^ 32 ∧ s ((G.W i).v + 352) = pmod .set
  com : s (G.cpc + 352) = pmod .set ∧ s (G.rend + 348) = 0 ∧ s cpAddr = cp ∧ s (G.cpc + 348) = cp
  vis : ∀ x, ¬ G.Int x → s x = σ.m x

namespace BHist
variable {L : Layout} {G : BCfg} {br : Nat → Nat} {cp : W} {σ σ' : BSt} {s s' : Mem}

theorem int {b : BO} (h : G.ok b) {x : Nat} (hx : x ∈ G.own b) : G.Int x := ⟨b, h, hx⟩

/-- The objects that are not touched stay as they are. -/
theorem step (h : BRep G cp σ s) (T : BO → Prop) (hO : ∀ b, G.ok b → ¬ T b → ∀ x ∈ G.own b, s' x = s x)
    (hr : ∀ i < G.nr, T (.rd i) → (G.R i).At s' (σ'.rp i) ∧ σ'.rp i < 2 ^ 32) (hr' : ∀ i < G.nr, ¬ T (.rd i) → σ'.rp i = σ.rp i)
    (hw : ∀ i < G.nw, T (.wr i) → (G.W i).At s' (σ'.wp i) ∧ σ'.wp i < 2 ^ 32 ∧ s' ((G.W i).v + 352) = s ((G.W i).v + 352)) (hw' : ∀ i < G.nw, ¬ T (.wr i) → σ'.wp i = σ.wp i)
    (hc : T .com → s' (G.cpc + 352) = pmod .set ∧ s' (G.rend + 348) = 0 ∧ s' cpAddr = cp ∧ s' (G.cpc + 348) = cp) (hv : ∀ x, ¬ G.Int x → s' x = σ'.m x) : BRep G cp σ' s' := by
  refine ⟨fun i hi => ?_, fun i hi => ?_, ?_, hv⟩
  · by_cases ht : T (.rd i)
    · exact hr i hi ht
    · obtain ⟨⟨a1, a2⟩, a3⟩ := h.rd i hi
      have e := hO (.rd i) hi ht
      rw [hr' i hi ht]
      exact ⟨⟨by rw [e _ (by simp [BCfg.own]), a1], by rw [e _ (by simp [BCfg.own]), a2]⟩, a3⟩
  · by_cases ht : T (.wr i)
    · obtain ⟨a, b, c⟩ := hw i hi ht
      exact ⟨a, b, by rw [c, (h.wr i hi).2.2]⟩
    · obtain ⟨⟨a1, a2, a3⟩, a4, a5⟩ := h.wr i hi
      have e := hO (.wr i) hi ht
      rw [hw' i hi ht]
      exact ⟨⟨by rw [e _ (by simp [BCfg.own]), a1], by rw [e _ (by simp [BCfg.own]), a2], by rw [e _ (by simp [BCfg.own]), a3]⟩, a4, by rw [e _ (by simp [BCfg.own]), a5]⟩
  · by_cases ht : T .com
    · exact hc ht
    · obtain ⟨a1, a2, a3, a4⟩ := h.com
      have e := hO .com trivial ht
      exact ⟨by rw [e _ (by simp [BCfg.own]), a1], by rw [e _ (by simp [BCfg.own]), a2], by rw [e _ (by simp [BCfg.own]), a3], by rw [e _ (by simp [BCfg.own]), a4]⟩

theorem val (h : BRep G cp σ s) {x : Src} (hx : SrcB L G x) : x.valM s = x.valM σ.m := by
  cases x with
  | const c => rfl
  | var v => exact h.vis _ (hx v rfl).2

/-- A list of dwords, each of the user or of a touched object. -/
theorem others (hG : G.Ok L br) {T : BO → Prop} {l : List Nat} (hl : ∀ x ∈ l, ¬ G.Int x ∨ ∃ t, T t ∧ G.ok t ∧ x ∈ G.own t) (ho : Only l s s') :
    ∀ b, G.ok b → ¬ T b → ∀ x ∈ G.own b, s' x = s x := by
  intro b hb ht x hx
  refine ho x fun hxl => ?_
  rcases hl x hxl with h | ⟨t, h1, h2, h3⟩
  · exact h (int hb hx)
  · exact hG.sep b t hb h2 (fun e => ht (e ▸ h1)) x hx h3

theorem upd_self (f : Nat → Nat) (i p : Nat) : upd f i p i = p := if_pos rfl
theorem upd_ne {f : Nat → Nat} {i p k : Nat} (h : k ≠ i) : upd f i p k = f k := if_neg h

/-- A call of a method with one argument. -/
theorem callOk1 {np off : Nat} {x : Src} {scr : List Nat} (hx : SrcB L G x) (cn : L.cell np) (co : L.cell (off + 348)) (in1 : G.Int np) (in2 : G.Int (off + 348)) (ne : np ≠ off + 348) (hs : np ∉ scr) :
    CallOk L np [] [(off + 348, x)] scr where
  cn := cn
  cr := by simp
  ca := by simp only [List.mem_singleton, forall_eq]; exact ⟨co, fun v hv => (hx v hv).1⟩
  na := by simp
  nr := by simp
  nd := by simp
  aa := by simp only [List.mem_singleton, forall_eq]; exact fun v hv e => (hx v hv).2 (e ▸ in2)
  an := by simp only [List.mem_singleton, forall_eq]; exact fun v hv => ⟨fun e => (hx v hv).2 (e ▸ in1), by simp⟩
  pn := by simp only [List.mem_singleton, forall_eq]; exact ⟨ne, by simp⟩
  rn := by simp
  rr := by simp
  sn := hs
  sr := by simp
  hnp := by simp

/-- The call of the division in the methods. -/
theorem divOk {D : Div4} {o1 o2 off : Nat} (nd : D.own.Nodup) (h1 : o1 ∉ D.own) (h2 : o2 ∉ D.own) (h3 : off + 348 ∉ D.own) (ho : o1 ≠ o2) (cd : ∀ x ∈ D.own, L.cell x) (c1 : L.cell o1) (c2 : L.cell o2)
    (e1 : EpdOK o1) (e2 : EpdOK o2) (hv : off ∈ L.P.vars) : CallOk L D.np [(D.q, o1), (D.a, o2)] [(D.a + 348, .var off)] [D.a + 348, D.q + 348] := by
  simp only [Div4.own, List.nodup_cons, List.mem_cons, not_or, List.not_mem_nil, not_false_eq_true, List.nodup_nil, and_true, or_false, forall_eq_or_imp, forall_eq] at nd h1 h2 h3 cd
  refine ⟨cd.1, ?_, ?_, ?_, ?_, ?_, ?_, ?_, ?_, ?_, ?_, ?_, ?_, ?_⟩ <;>
    simp only [List.mem_cons, List.not_mem_nil, or_false, forall_eq_or_imp, forall_eq, List.map_cons, List.map_nil, List.nodup_cons, not_or, not_false_eq_true, List.nodup_nil, and_true, Src.var.injEq, forall_eq']
  · exact ⟨⟨cd.2.2.2.1, c1, e1⟩, cd.2.2.2.2.1, c2, e2⟩
  · exact ⟨cd.2.2.2.2.2.1, hv⟩
  all_goals grind

theorem read_step (hG : G.Ok L br) (h : BRep G cp σ s) {i o : Nat} (n : Nat) (hk : (BOp.read i o).Ok L G σ) : Does L ((BOp.read i o).stmt L G n) s (BRep G cp ((BOp.read i o).spec σ)) := by
  obtain ⟨hi, co, eo, io, hp, hn⟩ := hk
  obtain ⟨a1, a2⟩ := h.rd i hi
  obtain ⟨b1, b2, b3, b4⟩ := h.com
  have nc := hG.nd .com trivial
  have nr := hG.nd (.rd i) hi
  have sp := hG.sep .com (.rd i) trivial hi (by simp)
  have io' : ∀ b, G.ok b → o ∉ G.own b := fun b hb hx => io (int hb hx)
  have ic := io' .com trivial
  have ir := io' (.rd i) hi
  have nd : (o :: (G.cpc + 348) :: (G.cpc + 352) :: brScr G.rend G.cpc (G.R i)).Nodup := by
    simp only [BCfg.own, brScr, List.nodup_cons, List.mem_cons, not_or, List.not_mem_nil, not_false_eq_true, List.nodup_nil, and_true, or_false, forall_eq_or_imp, forall_eq] at nc nr sp ic ir ⊢
    grind
  have hscr : ∀ x ∈ brScr G.rend G.cpc (G.R i), x ∈ G.own .com ∨ x ∈ G.own (.rd i) := by
    intro x hx
    simp only [brScr, BCfg.own, List.mem_cons, List.not_mem_nil, or_false] at hx ⊢
    grind
  have hpn : σ.rp i / 4 * 4 ∉ brScr G.rend G.cpc (G.R i) := fun hx => hn ((hscr _ hx).elim (int (b := .com) trivial) (int (b := .rd i) hi))
  refine (bread_does (nxt := n) nd a2 a1 b1 b2 hp hpn).mono ?_
  rintro s' ⟨e1, e2, e3, e4, e5⟩
  have kc : ∀ x ∈ [G.cpc + 348, G.cpc + 352], s' x = s x := by
    intro x hx
    refine e5 x ?_
    simp only [BCfg.own, brScr, List.nodup_cons, List.mem_cons, not_or, List.not_mem_nil, not_false_eq_true, List.nodup_nil, and_true, or_false, forall_eq_or_imp, forall_eq] at nd hx ⊢
    grind
  refine step h (fun b => b = .com ∨ b = .rd i) (others hG (l := o :: brScr G.rend G.cpc (G.R i)) ?_ e5) ?_ ?_ ?_ ?_ ?_ ?_
  · intro x hx
    rcases List.mem_cons.1 hx with rfl | hx
    · exact Or.inl io
    · rcases hscr x hx with hx | hx
      · exact Or.inr ⟨.com, Or.inl rfl, trivial, hx⟩
      · exact Or.inr ⟨.rd i, Or.inr rfl, hi, hx⟩
  · rintro k - (hk | hk)
    · cases hk
    · cases hk
      simp only [BOp.spec, upd_self]
      exact ⟨e2, nextB_lt _⟩
  · rintro k - hk
    exact upd_ne fun e => hk (Or.inr (by rw [e]))
  · rintro k - (hk | hk) <;> cases hk
  · intros; rfl
  · intro _
    exact ⟨by rw [kc _ (by simp), b1], e4, by rw [e3, b4], by rw [kc _ (by simp), b4]⟩
  · intro x hx
    simp only [BOp.spec, get_set]
    by_cases hxo : x = o
    · subst hxo
      rw [if_pos rfl, e1]
      unfold byteAt
      rw [h.vis _ hn]
    · rw [if_neg hxo, e5 x ?_, h.vis x hx]
      rw [List.mem_cons, not_or]
      exact ⟨hxo, fun hm => hx ((hscr _ hm).elim (int (b := .com) trivial) (int (b := .rd i) hi))⟩

theorem bwrOk (hG : G.Ok L br) {i : Nat} (hi : i < G.nw) : BWrOk L (G.W i) := by
  have c : ∀ x ∈ G.own (.wr i), L.cell x := fun x hx => hG.cel x (int (b := .wr i) hi hx)
  have nd := hG.nd (.wr i) hi
  refine ⟨c _ (by simp [BCfg.own]), c _ (by simp [BCfg.own]), c _ (by simp [BCfg.own]), c _ (by simp [BCfg.own]), ?_⟩
  simp only [BCfg.own, List.nodup_cons, List.mem_cons, not_or, List.not_mem_nil, not_false_eq_true, List.nodup_nil, and_true, or_false] at nd ⊢
  grind

/-- Writing, by a variable or a constant. -/
theorem write_step (hG : G.Ok L br) (h : BRep G cp σ s) {i : Nat} (hi : i < G.nw) {b : BitVec 8} {l : List Nat} (hl : ∀ x ∈ l, x ∈ G.own (.wr i)) (hm : (G.W i).v + 352 ∉ l) (hn : ¬ G.Int (σ.wp i / 4 * 4))
    (h1 : ∀ y, y ∉ l → s' y = putByte s (σ.wp i) b y) (h2 : (G.W i).At s' (nextB (σ.wp i))) :
    BRep G cp { σ with m := putByte σ.m (σ.wp i) b, wp := upd σ.wp i (nextB (σ.wp i)) } s' := by
  have h3 : ∀ y, y ∉ l → G.Int y → s' y = s y := fun y hy hI => by
    rw [h1 y hy, putByte_ne fun e => hn (e ▸ hI)]
  refine step h (fun b => b = .wr i) ?_ ?_ ?_ ?_ ?_ ?_ ?_
  · intro b hb ht x hx
    exact h3 x (fun hm => hG.sep b (.wr i) hb hi ht x hx (hl x hm)) (int hb hx)
  · rintro k - hk; cases hk
  · intros; rfl
  · rintro k - hk
    cases hk
    simp only [upd_self]
    exact ⟨h2, nextB_lt _, h3 _ hm (int (b := .wr i) hi (by simp [BCfg.own]))⟩
  · rintro k - hk
    exact upd_ne fun e => hk (by rw [e])
  · intro hk; cases hk
  · intro x hx
    rw [h1 x fun hm => hx (int (b := .wr i) hi (hl x hm))]
    unfold putByte
    simp only [get_set, h.vis _ hn, h.vis x hx]

theorem writeV_step (hG : G.Ok L br) (h : BRep G cp σ s) {i n : Nat} {x : Src} (hn : n < 2 ^ 32) (hk : (BOp.writeV i x).Ok L G σ) :
    Does L ((BOp.writeV i x).stmt L G n) s (BRep G cp ((BOp.writeV i x).spec σ)) := by
  obtain ⟨hi, hx, eo, co, io⟩ := hk
  obtain ⟨a1, a2, a3⟩ := h.wr i hi
  obtain ⟨fs, hF⟩ := hG.wf' i hi
  have c : ∀ x ∈ G.own (.wr i), L.cell x := fun x hx => hG.cel x (int (b := .wr i) hi hx)
  have I : ∀ x ∈ G.own (.wr i), G.Int x := fun x hx => int (b := .wr i) hi hx
  have nd := hG.nd (.wr i) hi
  simp only [BCfg.own, List.nodup_cons, List.mem_cons, not_or, List.not_mem_nil, not_false_eq_true, List.nodup_nil, and_true, or_false] at nd
  have hl : ∀ x ∈ bwOwn (G.W i), x ∈ G.own (.wr i) := by
    intro x hx
    simp only [bwOwn, bwScr, BCfg.own, List.mem_cons, List.not_mem_nil, or_false] at hx ⊢
    grind
  refine (bwrite_does hG.wf (bwrOk hG hi) ⟨hG.wv i hi, (hG.wme i hi).2.1, ?_⟩ hF hn (callOk1 hx (c _ (by simp [BCfg.own])) (c _ (by simp [BCfg.own])) (I _ (by simp [BCfg.own])) (I _ (by simp [BCfg.own])) ?_ ?_) ?_ a2 a1 a3 eo co (fun hm => io (I _ (hl _ hm)))).mono ?_
  · simp only [List.mem_cons, not_or, List.not_mem_nil, not_false_eq_true, and_true, or_false, forall_eq_or_imp, forall_eq]; grind
  · grind
  · simp only [bwScr, List.mem_cons, not_or, List.not_mem_nil, not_false_eq_true, and_true, or_false]; grind
  · grind
  · rintro s' ⟨e1, e2⟩
    rw [val h hx] at e1
    exact write_step hG h hi hl (by simp only [bwOwn, bwScr, List.mem_cons, not_or, List.not_mem_nil, not_false_eq_true, and_true, or_false]; grind) io e1 e2

theorem writeC_step (hG : G.Ok L br) (h : BRep G cp σ s) {i n b : Nat} (hk : (BOp.writeC i b).Ok L G σ) :
    Does L ((BOp.writeC i b).stmt L G n) s (BRep G cp ((BOp.writeC i b).spec σ)) := by
  obtain ⟨hi, eo, co, io⟩ := hk
  obtain ⟨a1, a2, a3⟩ := h.wr i hi
  have c : ∀ x ∈ G.own (.wr i), L.cell x := fun x hx => hG.cel x (int (b := .wr i) hi hx)
  have I : ∀ x ∈ G.own (.wr i), G.Int x := fun x hx => int (b := .wr i) hi hx
  have nd := hG.nd (.wr i) hi
  simp only [BCfg.own, List.nodup_cons, List.mem_cons, not_or, List.not_mem_nil, not_false_eq_true, List.nodup_nil, and_true, or_false] at nd
  have hl : ∀ x ∈ bwcScr (G.W i), x ∈ G.own (.wr i) := by
    intro x hx
    simp only [bwcScr, bwcOwn, List.cons_append, List.nil_append, BCfg.own, List.mem_cons, List.not_mem_nil, or_false] at hx ⊢
    grind
  refine (bwriteC_does (back := n) (b := b) (bwrOk hG hi) ⟨?_, c _ (by simp [BCfg.own]), ?_, ?_⟩ a2 a1 eo co (fun hm => io (I _ (hl _ hm)))).mono ?_
  · intro k hk
    have : k = 0 ∨ k = 1 ∨ k = 2 ∨ k = 3 := by omega
    rcases this with rfl | rfl | rfl | rfl <;> exact c _ (by simp [BCfg.own])
  · simp only [bwcOwn, List.nodup_cons, List.mem_cons, not_or, List.not_mem_nil, not_false_eq_true, List.nodup_nil, and_true, or_false]; grind
  · simp only [bwcOwn, List.mem_cons, not_or, List.not_mem_nil, not_false_eq_true, and_true, or_false, forall_eq_or_imp, forall_eq]; grind
  · rintro s' ⟨e1, e2⟩
    exact write_step hG h hi hl (by simp only [bwcScr, bwcOwn, List.cons_append, List.nil_append, List.mem_cons, not_or, List.not_mem_nil, not_false_eq_true, and_true, or_false]; grind) io e1 e2

/-- Seeking with a reader. -/
theorem rseek_step (hG : G.Ok L br) (h : BRep G cp σ s) {i p : Nat} (hi : i < G.nr) (hp : p < 2 ^ 32) {l : List Nat} (hl : ∀ x ∈ l, x ∈ G.own (.rd i) ∨ x ∈ (G.ev3 + 348) :: G.D.own)
    (h1 : (G.R i).At s' p) (h2 : Only l s s') : BRep G cp { σ with rp := upd σ.rp i p } s' := by
  have nc := hG.nd .com trivial
  have sp := hG.sep .com (.rd i) trivial hi (by simp)
  have hc : ∀ x ∈ (G.ev3 + 348) :: G.D.own, x ∈ G.own .com := by
    intro x hx
    simp only [Div4.own, BCfg.own, List.mem_cons, List.not_mem_nil, or_false] at hx ⊢
    grind
  have keep : ∀ x ∈ [G.cpc + 352, G.rend + 348, cpAddr, G.cpc + 348], s' x = s x := by
    intro x hx
    have hxc : x ∈ G.own .com := by
      simp only [BCfg.own, List.mem_cons, List.not_mem_nil, or_false] at hx ⊢
      grind
    refine h2 x fun hm => ?_
    rcases hl x hm with hm | hm
    · exact sp x hxc hm
    · simp only [BCfg.own, Div4.own, List.nodup_cons, List.mem_cons, not_or, List.not_mem_nil, not_false_eq_true, List.nodup_nil, and_true, or_false] at nc hx hm
      grind
  obtain ⟨b1, b2, b3, b4⟩ := h.com
  refine step h (fun b => b = .com ∨ b = .rd i) (others hG (l := l) ?_ h2) ?_ ?_ ?_ ?_ ?_ ?_
  · intro x hx
    rcases hl x hx with hx | hx
    · exact Or.inr ⟨.rd i, Or.inr rfl, hi, hx⟩
    · exact Or.inr ⟨.com, Or.inl rfl, trivial, hc x hx⟩
  · rintro k - (hk | hk)
    · cases hk
    · cases hk
      simp only [upd_self]
      exact ⟨h1, hp⟩
  · rintro k - hk
    exact upd_ne fun e => hk (Or.inr (by rw [e]))
  · rintro k - (hk | hk) <;> cases hk
  · intros; rfl
  · intro _
    exact ⟨by rw [keep _ (by simp), b1], by rw [keep _ (by simp), b2], by rw [keep _ (by simp), b3], by rw [keep _ (by simp), b4]⟩
  · intro x hx
    rw [h2 x fun hm => hx ((hl x hm).elim (int (b := .rd i) hi) fun hm => int (b := .com) trivial (hc x hm)), h.vis x hx]

/-- Seeking with a writer. -/
theorem wseek_step (hG : G.Ok L br) (h : BRep G cp σ s) {i p : Nat} (hi : i < G.nw) (hp : p < 2 ^ 32) {l : List Nat} (hl : ∀ x ∈ l, x ∈ [(G.W i).wr + 344, (G.W i).sub, (G.WM i).np, (G.WM i).off + 348] ∨ x ∈ G.D.own)
    (h1 : (G.W i).At s' p) (h2 : Only l s s') : BRep G cp { σ with wp := upd σ.wp i p } s' := by
  have nc := hG.nd .com trivial
  have nw := hG.nd (.wr i) hi
  have sp := hG.sep .com (.wr i) trivial hi (by simp)
  have hc : ∀ x ∈ G.D.own, x ∈ G.own .com := by
    intro x hx
    simp only [Div4.own, BCfg.own, List.mem_cons, List.not_mem_nil, or_false] at hx ⊢
    grind
  have hw : ∀ x ∈ [(G.W i).wr + 344, (G.W i).sub, (G.WM i).np, (G.WM i).off + 348], x ∈ G.own (.wr i) := by
    intro x hx
    simp only [BCfg.own, List.mem_cons, List.not_mem_nil, or_false] at hx ⊢
    grind
  have keep : ∀ x ∈ [G.cpc + 352, G.rend + 348, cpAddr, G.cpc + 348], s' x = s x := by
    intro x hx
    have hxc : x ∈ G.own .com := by
      simp only [BCfg.own, List.mem_cons, List.not_mem_nil, or_false] at hx ⊢
      grind
    refine h2 x fun hm => ?_
    rcases hl x hm with hm | hm
    · exact sp x hxc (hw x hm)
    · simp only [BCfg.own, Div4.own, List.nodup_cons, List.mem_cons, not_or, List.not_mem_nil, not_false_eq_true, List.nodup_nil, and_true, or_false] at nc hx hm
      grind
  have kv : s' ((G.W i).v + 352) = s ((G.W i).v + 352) := by
    refine h2 _ fun hm => ?_
    rcases hl _ hm with hm | hm
    · simp only [BCfg.own, List.nodup_cons, List.mem_cons, not_or, List.not_mem_nil, not_false_eq_true, List.nodup_nil, and_true, or_false] at nw hm
      grind
    · exact sp _ (hc _ hm) (by simp [BCfg.own])
  obtain ⟨b1, b2, b3, b4⟩ := h.com
  refine step h (fun b => b = .com ∨ b = .wr i) (others hG (l := l) ?_ h2) ?_ ?_ ?_ ?_ ?_ ?_
  · intro x hx
    rcases hl x hx with hx | hx
    · exact Or.inr ⟨.wr i, Or.inr rfl, hi, hw x hx⟩
    · exact Or.inr ⟨.com, Or.inl rfl, trivial, hc x hx⟩
  · rintro k - (hk | hk) <;> cases hk
  · intros; rfl
  · rintro k - (hk | hk)
    · cases hk
    · cases hk
      simp only [upd_self]
      exact ⟨h1, hp, kv⟩
  · rintro k - hk
    exact upd_ne fun e => hk (Or.inr (by rw [e]))
  · intro _
    exact ⟨by rw [keep _ (by simp), b1], by rw [keep _ (by simp), b2], by rw [keep _ (by simp), b3], by rw [keep _ (by simp), b4]⟩
  · intro x hx
    rw [h2 x fun hm => hx ((hl x hm).elim (fun hm => int (b := .wr i) hi (hw x hm)) fun hm => int (b := .com) trivial (hc x hm)), h.vis x hx]

theorem divOwn (hG : G.Ok L br) : G.D.own.Nodup ∧ (∀ x ∈ G.D.own, L.cell x) ∧ (∀ x ∈ G.D.own, x ∈ G.own .com) ∧ G.ev3 + 348 ∉ G.D.own := by
  have nc := hG.nd .com trivial
  have hc : ∀ x ∈ G.D.own, x ∈ G.own .com := by
    intro x hx
    simp only [Div4.own, BCfg.own, List.mem_cons, List.not_mem_nil, or_false] at hx ⊢
    grind
  refine ⟨?_, fun x hx => hG.cel x (int (b := .com) trivial (hc x hx)), hc, ?_⟩ <;>
  · simp only [Div4.own, BCfg.own, List.nodup_cons, List.mem_cons, not_or, List.not_mem_nil, not_false_eq_true, List.nodup_nil, and_true, or_false] at nc ⊢
    grind

theorem rseekV_step (hG : G.Ok L br) (h : BRep G cp σ s) {i n : Nat} {x : Src} (hn : n < 2 ^ 32) (hk : (BOp.rseekV i x).Ok L G σ) :
    Does L ((BOp.rseekV i x).stmt L G n) s (BRep G cp ((BOp.rseekV i x).spec σ)) := by
  obtain ⟨hi, hx⟩ := hk
  have c : ∀ x ∈ G.own (.rd i), L.cell x := fun x hx => hG.cel x (int (b := .rd i) hi hx)
  have I : ∀ x ∈ G.own (.rd i), G.Int x := fun x hx => int (b := .rd i) hi hx
  have sp := hG.sep (.rd i) .com hi trivial (by simp)
  have nd := hG.nd (.rd i) hi
  obtain ⟨d1, d2, d3, d4⟩ := divOwn hG
  have cev : L.cell (G.ev3 + 348) := hG.cel _ (int (b := .com) trivial (by simp [BCfg.own]))
  have iev : G.ev3 + 348 ∈ G.own .com := by simp [BCfg.own]
  have m1 : (G.R i).rd + 4 ∈ G.own (.rd i) := by simp [BCfg.own]
  have m2 : (G.R i).rd + 348 ∈ G.own (.rd i) := by simp [BCfg.own]
  have m3 : (G.RM i).np ∈ G.own (.rd i) := by simp [BCfg.own]
  have m4 : (G.RM i).off + 348 ∈ G.own (.rd i) := by simp [BCfg.own]
  obtain ⟨e1, e2, e3⟩ := hG.rme i hi
  simp only [BCfg.own, List.nodup_cons, List.mem_cons, not_or, List.not_mem_nil, not_false_eq_true, List.nodup_nil, and_true, or_false] at nd
  refine (brSeekV_does hG.wf hG.div e3 hn (c _ m1) (c _ m2) cev
    (divOk d1 (fun hm => sp _ m2 (d3 _ hm)) d4 (fun hm => sp _ m4 (d3 _ hm)) (fun e => sp _ m2 (e ▸ iev)) d2 (c _ m2) cev e1 hG.eev e2) ?_ (hG.rmf i hi) (callOk1 hx (c _ m3) (c _ m4) (I _ m3) (I _ m4) (by grind) ?_) s).mono ?_
  · simp only [brOwn, List.mem_cons, List.not_mem_nil, or_false, not_or]
    exact ⟨fun e => sp _ m1 (e ▸ iev), fun e => sp _ m2 (e ▸ iev)⟩
  · simp only [brOwn, List.cons_append, List.nil_append, List.mem_cons, not_or]
    exact ⟨fun e => sp _ m3 (e ▸ iev), by grind, by grind, fun hm => sp _ m3 (d3 _ hm)⟩
  · rintro s' ⟨f1, f2⟩
    rw [val h hx] at f1
    refine rseek_step hG h hi (BitVec.isLt _) ?_ f1 f2
    intro y hy
    simp only [Meth.own, brOwn, BCfg.own, List.cons_append, List.nil_append, List.mem_cons, List.not_mem_nil, or_false] at hy ⊢
    grind

theorem wseekV_step (hG : G.Ok L br) (h : BRep G cp σ s) {i n : Nat} {x : Src} (hn : n < 2 ^ 32) (hk : (BOp.wseekV i x).Ok L G σ) :
    Does L ((BOp.wseekV i x).stmt L G n) s (BRep G cp ((BOp.wseekV i x).spec σ)) := by
  obtain ⟨hi, hx⟩ := hk
  have c : ∀ x ∈ G.own (.wr i), L.cell x := fun x hx => hG.cel x (int (b := .wr i) hi hx)
  have I : ∀ x ∈ G.own (.wr i), G.Int x := fun x hx => int (b := .wr i) hi hx
  have sp := hG.sep (.wr i) .com hi trivial (by simp)
  have nd := hG.nd (.wr i) hi
  obtain ⟨d1, d2, d3, -⟩ := divOwn hG
  have m1 : (G.W i).wr + 344 ∈ G.own (.wr i) := by simp [BCfg.own]
  have m2 : (G.W i).sub ∈ G.own (.wr i) := by simp [BCfg.own]
  have m3 : (G.WM i).np ∈ G.own (.wr i) := by simp [BCfg.own]
  have m4 : (G.WM i).off + 348 ∈ G.own (.wr i) := by simp [BCfg.own]
  have m5 : (G.W i).wr + 348 ∈ G.own (.wr i) := by simp [BCfg.own]
  obtain ⟨e1, -, e2, e3, e4⟩ := hG.wme i hi
  simp only [BCfg.own, List.nodup_cons, List.mem_cons, not_or, List.not_mem_nil, not_false_eq_true, List.nodup_nil, and_true, or_false] at nd
  refine (bwSeekV_does hG.wf hG.div e4 hn (bwrOk hG hi)
    (divOk d1 (fun hm => sp _ m1 (d3 _ hm)) (fun hm => sp _ m2 (d3 _ hm)) (fun hm => sp _ m4 (d3 _ hm)) (by grind) d2 (c _ m1) (c _ m2) e1 e2 e3) (fun hm => sp _ m5 (d3 _ hm)) ?_ (hG.wmf i hi)
    (callOk1 hx (c _ m3) (c _ m4) (I _ m3) (I _ m4) (by grind) ?_) (h.wr i hi).1.2.2).mono ?_
  · simp only [Meth.own, List.mem_cons, List.not_mem_nil, or_false, not_or]; grind
  · simp only [List.cons_append, List.nil_append, List.mem_cons, not_or]
    exact ⟨by grind, by grind, fun hm => sp _ m3 (d3 _ hm)⟩
  · rintro s' ⟨f1, f2⟩
    rw [val h hx] at f1
    refine wseek_step hG h hi (BitVec.isLt _) ?_ f1 f2
    intro y hy
    simp only [Meth.own, List.cons_append, List.nil_append, List.mem_cons, List.not_mem_nil, or_false] at hy ⊢
    grind

theorem asg_step (h : BRep G cp σ s) {a n : Nat} {md : Mod} {x : Src} (hk : (BOp.asg a md x).Ok L G σ) : Does L ((BOp.asg a md x).stmt L G n) s (BRep G cp ((BOp.asg a md x).spec σ)) := by
  obtain ⟨ca, ia, hx⟩ := hk
  refine Does.asg (by simpa using ca) (by simp only [List.mem_singleton, forall_eq]; exact fun v hv => (hx v hv).1) ?_
  simp only [runAsg]
  rw [val h hx, h.vis a ia]
  refine step h (fun _ => False) ?_ (by simp) (by intros; rfl) (by simp) (by intros; rfl) (by simp) ?_
  · intro b hb _ y hy
    exact set_ne fun e => ia (e ▸ int hb hy)
  · intro y hy
    simp only [BOp.spec, get_set, h.vis y hy]

end BHist

open BHist in
/-- **C37 (one operation).** -/
theorem C37_step {L : Layout} {G : BCfg} {br : Nat → Nat} (hG : G.Ok L br) {cp : W} {σ : BSt} {s : Mem} (h : BRep G cp σ s) {n : Nat} (hn : n < 2 ^ 32) (op : BOp) (hk : op.Ok L G σ) :
    Does L (op.stmt L G n) s (BRep G cp (op.spec σ)) := by
  cases op with
  | asg a md x => exact asg_step h hk
  | read i o => exact read_step hG h n hk
  | writeV i x => exact writeV_step hG h hn hk
  | writeC i b => exact writeC_step hG h hk
  | rseekC i p =>
    have hR := hG.rd i hk.1
    refine (brSeekC_does hR.c4 hR.c348 hk.2 s).mono ?_
    rintro s' ⟨e1, e2⟩
    exact rseek_step hG h hk.1 hk.2 (fun x hx => Or.inl (by simp only [brOwn, BCfg.own, List.mem_cons, List.not_mem_nil, or_false] at hx ⊢; grind)) e1 e2
  | rseekV i x => exact rseekV_step hG h hn hk
  | rseekE i e k =>
    obtain ⟨hi, he, hk⟩ := hk
    have hR := hG.rd i hi
    refine (brSeekEpd_does hR.c4 hR.c348 (fun v hv => ⟨(he v hv).1, fun e => (he v hv).2 (e ▸ int (b := .rd i) hi (by simp [BCfg.own]))⟩) hk s).mono ?_
    rintro s' ⟨e1, e2⟩
    rw [val h he] at e1
    have := epdAddr_lt (e.valM σ.m)
    have := epdAddr_mod (e.valM σ.m)
    exact rseek_step hG h hi (by omega) (fun x hx => Or.inl (by simp only [brOwn, BCfg.own, List.mem_cons, List.not_mem_nil, or_false] at hx ⊢; grind)) e1 e2
  | wseekC i p =>
    refine (bwSeekC_does (bwrOk hG hk.1) hk.2 (h.wr i hk.1).1.2.2).mono ?_
    rintro s' ⟨e1, e2⟩
    exact wseek_step hG h hk.1 hk.2 (fun x hx => Or.inl (by simp only [List.mem_cons, List.not_mem_nil, or_false] at hx ⊢; grind)) e1 e2
  | wseekV i x => exact wseekV_step hG h hn hk
  | wseekE i e k =>
    obtain ⟨hi, he, hv, hk⟩ := hk
    refine (bwSeekEpd_does (bwrOk hG hi) (e := e) (i := k) (fun v hv => ⟨(he v hv).1, fun e => (he v hv).2 (e ▸ int (b := .wr i) hi (by simp [BCfg.own]))⟩) (fun v h => (hv v h).1) (by rw [val h hv]; exact hk) (h.wr i hi).1.2.2).mono ?_
    rintro s' ⟨e1, e2⟩
    rw [val h he, val h hv] at e1
    have := epdAddr_lt (e.valM σ.m)
    have := epdAddr_mod (e.valM σ.m)
    exact wseek_step hG h hi (by omega) (fun x hx => Or.inl (by simp only [List.mem_cons, List.not_mem_nil, or_false] at hx ⊢; grind)) e1 e2

/-- The state after a history. -/
def BOp.run (ops : List BOp) (σ : BSt) : BSt := ops.foldl (fun σ op => op.spec σ) σ

/-- Each operation may be used when it comes. -/
def BOp.AllOk (L : Layout) (G : BCfg) : List BOp → BSt → Prop
  | [], _ => True
  | op :: ops, σ => op.Ok L G σ ∧ BOp.AllOk L G ops (op.spec σ)

/-- **C37.** Any history of reads, writes, seeks and assignments by any number of readers and writers does what the specification says: each reader returns the bytes from its position on in turn, each writer
changes exactly the bytes from its position on, writers and readers see each other's bytes, none moves another, and the current player stays. -/
theorem C37_history {L : Layout} {G : BCfg} {br : Nat → Nat} (hG : G.Ok L br) {cp : W} : ∀ (ops : List (BOp × Nat)) {σ : BSt} {s : Mem}, BRep G cp σ s → (∀ o ∈ ops, o.2 < 2 ^ 32) →
    BOp.AllOk L G (ops.map Prod.fst) σ → Does L (.seqs (ops.map fun o => o.1.stmt L G o.2)) s (BRep G cp (BOp.run (ops.map Prod.fst) σ))
  | [], _, _, h, _, _ => Does.skip h
  | (op, n) :: ops, _, _, h, hn, hk => Does.seq ((C37_step hG h (hn _ (by simp)) op hk.1).mono fun _ h1 => C37_history hG ops h1 (fun o ho => hn o (by simp [ho])) hk.2)

end Eud.SC
