import Verif.Lib.Pool
/-
C40: `EUDStack` (collections/eudstack.py), a structure of an `EUDArray` and a position; and programs that use both kinds of arrays.
-/

namespace Eud.SC

/-! ## Programs with both kinds of arrays -/

def Arrs.cells (B : Arrs) : List Nat := (List.range B.n).flatMap fun k => (List.range (B.len k)).map fun i => B.at k i

def VArrs.dwords (A : VArrs) : List Nat := (A.V.gi + 348) :: (List.range A.n).flatMap fun k => (List.range (A.len k)).flatMap fun i => VSh.dws (A.at k i)

theorem Arrs.mem_cells {B : Arrs} {k i : Nat} (h : B.In k i) : B.at k i ∈ B.cells := by
  simp only [Arrs.cells, List.mem_flatMap, List.mem_map, List.mem_range]
  exact ⟨k, h.1, i, h.2, rfl⟩

theorem VArrs.mem_dwords {A : VArrs} {k i y : Nat} (h : A.In k i) (hy : y ∈ VSh.dws (A.at k i)) : y ∈ A.dwords := by
  simp only [VArrs.dwords, List.mem_cons, List.mem_flatMap, List.mem_range]
  exact Or.inr ⟨k, h.1, i, h.2, hy⟩

theorem VArrs.of_dwords {A : VArrs} {y : Nat} (h : y ∈ A.dwords) : y = A.V.gi + 348 ∨ ∃ k i, A.In k i ∧ y ∈ VSh.dws (A.at k i) := by
  simp only [VArrs.dwords, List.mem_cons, List.mem_flatMap, List.mem_range] at h
  rcases h with h | ⟨k, hk, i, hi, h⟩
  · exact Or.inl h
  · exact Or.inr ⟨k, i, ⟨hk, hi⟩, h⟩

/-- Everything that belongs to the arrays `B`. -/
def Arrs.foot (B : Arrs) : List Nat := B.rd ++ B.cells

/-- Arrays of variables `A` and arrays of dwords `B`, in a program with the same other dwords. -/
structure MixOk (L : Layout) (A : VArrs) (B : Arrs) : Prop where
  a : A.Ok L
  b : B.Ok L
  u : A.U = B.U
  ap : Apart A B.foot

structure MixIs (A : VArrs) (B : Arrs) (s : Mem) (f g : Nat → Nat → W) (e : Mem) : Prop where
  a : VArrIs A s (f, e)
  b : ArrIs B s (g, e)

theorem mixV {L : Layout} {A : VArrs} {B : Arrs} (hM : MixOk L A B) {op : VOp} (hop : op.Ok L A) {s : Mem} {f g f' : Nat → Nat → W} {e e' : Mem} (hI : MixIs A B s f g e)
    (hs : op.spec A (f, e) = some (f', e')) : Does L (op.stmt L A) s fun s' => MixIs A B s' f' g e' := by
  refine (fieldStep hM.a hM.ap hop hI.a hs).mono ?_
  rintro s' ⟨h1, h2⟩
  have md : B.cpc + 352 ∈ B.foot := List.mem_append_left _ (by simp [Arrs.rd])
  have z : B.rend + 348 ∈ B.foot := List.mem_append_left _ (by simp [Arrs.rd, rdScr])
  exact ⟨h1, fun k i h => (h2 _ (List.mem_append_right _ (Arrs.mem_cells h))).trans (hI.b.el k i h), (h2 _ md).trans hI.b.md, (h2 _ z).trans hI.b.z, fun x hx => h1.u x (hM.u ▸ hx)⟩

def Arrs.ext (B : Arrs) (l : List Nat) : Arrs := { B with U := B.U ++ l }

theorem mixExt {L : Layout} {A : VArrs} {B : Arrs} (hM : MixOk L A B) : (B.ext A.dwords).Ok L where
  al := hM.b.al
  lt := hM.b.lt
  plain := hM.b.plain
  cell := hM.b.cell
  inj := hM.b.inj
  rdn := hM.b.rdn
  un := fun k i hk h => by
    rcases List.mem_append.1 h with h | h
    · exact hM.b.un k i hk h
    · have := hM.ap _ (List.mem_append_right _ (Arrs.mem_cells hk))
      rcases VArrs.of_dwords h with h | ⟨k', i', h1, h2⟩
      · exact this.2.1 (by rw [show B.at k i = A.V.gi + 348 from h]; simp [VSh.scr])
      · exact this.2.2 _ _ h1 h2
  urd := fun x hx h => by
    rcases List.mem_append.1 hx with hx | hx
    · exact hM.b.urd x hx h
    · have := hM.ap x (List.mem_append_left _ h)
      rcases VArrs.of_dwords hx with rfl | ⟨k', i', h1, h2⟩
      · exact this.2.1 (by simp [VSh.scr])
      · exact this.2.2 _ _ h1 h2

/-- What is needed of operations on `B`, besides `ArrOp.Ok`: the action and variable of a write do not belong to `A`. -/
def ArrOp.Clear (A : VArrs) : ArrOp → Prop
  | .put _ p t _ _ _ _ _ => Apart A [t + 348, p, p + 16, p + 20]
  | _ => True

theorem mixA {L : Layout} {A : VArrs} {B : Arrs} (hM : MixOk L A B) {op : ArrOp} (hop : op.Ok L B) (hc : op.Clear A) {s : Mem} {f g g' : Nat → Nat → W} {e e' : Mem} (hI : MixIs A B s f g e)
    (hs : op.spec B (g, e) = some (g', e')) : Does L (op.stmt L B) s fun s' => MixIs A B s' f g' e' := by
  have hi : ArrIs (B.ext A.dwords) s (g, s) := ⟨hI.b.el, hI.b.md, hI.b.z, fun _ _ => rfl⟩
  have mono : ∀ {x : Src}, SrcIn B.U x → SrcIn (B.ext A.dwords).U x := fun h v hv => List.mem_append_left _ (h v hv)
  have ex : ∀ {x : Src}, SrcIn B.U x → x.valM s = x.valM e := fun h => valM_in hI.b.u h
  have du : ∀ x ∈ A.dwords, x ∉ B.U := by
    intro x hx hu
    rw [← hM.u] at hu
    rcases VArrs.of_dwords hx with rfl | ⟨k', i', h1, h2⟩
    · exact hM.a.usc _ hu (by simp [VSh.scr])
    · exact (hM.a.esc _ _ h1 _ h2).2 hu
  have asg : ∀ gs, AsgIn L B.U gs → AsgIn L (B.ext A.dwords).U gs ∧ (∀ x ∈ B.U, runAsg gs s x = runAsg gs e x) ∧ ∀ x ∉ B.U, runAsg gs s x = s x := by
    intro gs hg
    obtain ⟨g1, g2⟩ := runAsg_in gs hI.b.u fun g h => (hg.1 g h).2
    exact ⟨⟨fun g h => ⟨(hg.1 g h).1, List.mem_append_left _ (hg.1 g h).2.1, mono (hg.1 g h).2.2⟩, hg.2⟩, g1, g2⟩
  have out : ∀ {s' t e' : Mem} {g' : Nat → Nat → W}, (∀ x ∈ B.U, t x = e' x) → (∀ x ∈ A.dwords, t x = s x) → ArrIs (B.ext A.dwords) s' (g', t) → MixIs A B s' f g' e' := by
    intro s' t e' g' h1 h2 h
    have hd : ∀ x ∈ A.dwords, s' x = s x := fun x hx => (h.u x (List.mem_append_right _ hx)).trans (h2 x hx)
    have hu : ∀ x ∈ B.U, s' x = e' x := fun x hx => (h.u x (List.mem_append_left _ hx)).trans (h1 x hx)
    exact ⟨hI.a.frame (fun k i hk y hy => hd _ (VArrs.mem_dwords hk hy)) (hd _ (by simp [VArrs.dwords])) (fun _ _ _ => rfl) (fun x hx => hu x (hM.u ▸ hx)), h.el, h.md, h.z, hu⟩
  cases op with
  | get k t a key gs r nxt o =>
    obtain ⟨o1, o2, o3, o4, o5, o6, o7⟩ := hop
    simp only [ArrOp.spec] at hs
    split at hs
    · rename_i hh
      simp only [Option.some.injEq, Prod.mk.injEq] at hs
      obtain ⟨rfl, rfl⟩ := hs
      obtain ⟨a1, a2, a3⟩ := asg gs o5
      refine (arrStep (A := B.ext A.dwords) (mixExt hM) (op := .get k t a key gs r nxt o) ⟨o1, o2, mono o3, mono o4, a1, o6, List.mem_append_left _ o7⟩ hi
        (a' := (g, (runAsg gs s).set o (g k (key.valM e).toNat))) ?_).mono fun s' h => out ?_ ?_ h
      · simp only [ArrOp.spec]
        rw [ex o4, ex o3]
        exact if_pos hh
      · intro x hx
        rw [get_set, get_set, a2 x hx]
      · intro x hx
        rw [set_ne (fun h : x = o => du x hx (h ▸ o7)), a3 x (du x hx)]
    · cases hs
  | put k p t fl md a key x =>
    obtain ⟨o1, o2, o3, o4, o5⟩ := hop
    simp only [ArrOp.spec] at hs
    split at hs
    · rename_i hh
      simp only [Option.some.injEq, Prod.mk.injEq] at hs
      obtain ⟨rfl, rfl⟩ := hs
      refine (arrStep (A := B.ext A.dwords) (mixExt hM) (op := .put k p t fl md a key x) ⟨o1, mono o2, mono o3, mono o4, fun y hy => ⟨fun h => ?_, (o5 y hy).2⟩⟩ hi
        (a' := (fun k' i' => if k' = k ∧ i' = (key.valM e).toNat then arith md (g k' i') (x.valM e) else g k' i', s)) ?_).mono fun s' h => out (fun x hx => hI.b.u x hx) (fun _ _ => rfl) h
      · rcases List.mem_append.1 h with h | h
        · exact (o5 y hy).1 h
        · have := hc y hy
          rcases VArrs.of_dwords h with rfl | ⟨k', i', h1, h2⟩
          · exact this.2.1 (by simp [VSh.scr])
          · exact this.2.2 _ _ h1 h2
      · simp only [ArrOp.spec]
        rw [ex o3, ex o2, ex o4]
        exact if_pos hh
    · cases hs
  | user gs =>
    simp only [ArrOp.spec, Option.some.injEq, Prod.mk.injEq] at hs
    obtain ⟨rfl, rfl⟩ := hs
    obtain ⟨a1, a2, a3⟩ := asg gs hop
    exact (arrStep (A := B.ext A.dwords) (mixExt hM) (op := .user gs) a1 hi (a' := (g, runAsg gs s)) rfl).mono fun s' h => out a2 (fun x hx => a3 x (du x hx)) h

/-! ## Stacks -/

/-- The stacks of a program: stack `i` is the structure `k i`, with the array `j i`.  `D` are the dwords of the program, besides temporaries. -/
structure Stks where
  n : Nat
  k : Nat → Nat
  j : Nat → Nat
  D : List Nat

/-- Operations on stack `i`, whose address is `a`, and EPD `e`.  The other places are those of temporaries, and where control goes on. -/
inductive SOp
  | new (i : Nat) (e : Src) (n1 n2 : Nat)
  | push (i : Nat) (a e x : Src) (vd vp vq p t n1 n2 n3 n4 : Nat)
  | pop (i : Nat) (a e : Src) (vd vp vq t : Nat) (gs : List Asg) (r : Src) (n1 n2 n3 n4 nx o : Nat)
  | empty (i : Nat) (a : Src) (vp n1 o : Nat)
  | user (gs : List Asg)

/-- eudstack.py:17-31.  `self.data`, `self.pos` are fields 0 and 1 (eudstruct.py:120-137); `self.pos += 1` gets the field, adds, and sets it.
`empty` is the condition `self.pos == 0`, put into `o` here. -/
def SOp.stmt (L : Layout) (A : VArrs) (B : Arrs) (S : Stks) : SOp → Stmt
  | .new i e n1 n2 => .seqs [VOp.stmt L A (.put (S.k i) e (.const (epd (B.base (S.j i)))) (.const 0) n1), VOp.stmt L A (.put (S.k i) e (.const 0) (.const 1) n2)]
  | .push i a e x vd vp vq p t n1 n2 n3 n4 => .seqs [
      VOp.stmt L A (.get (S.k i) a (.const 0) n1 (vd + 348)), VOp.stmt L A (.get (S.k i) a (.const 1) n2 (vp + 348)),
      ArrOp.stmt L B (.put (S.j i) p t false .set (.var vd) (.var vp) x),
      VOp.stmt L A (.get (S.k i) a (.const 1) n3 (vq + 348)), VOp.stmt L A (.user [⟨vq + 348, .add, .const 1⟩]), VOp.stmt L A (.put (S.k i) e (.var vq) (.const 1) n4)]
  | .pop i a e vd vp vq t gs r n1 n2 n3 n4 nx o => .seqs [
      VOp.stmt L A (.get (S.k i) a (.const 1) n1 (vq + 348)), VOp.stmt L A (.user [⟨vq + 348, .add, .const (-1)⟩]), VOp.stmt L A (.put (S.k i) e (.var vq) (.const 1) n2),
      VOp.stmt L A (.get (S.k i) a (.const 0) n3 (vd + 348)), VOp.stmt L A (.get (S.k i) a (.const 1) n4 (vp + 348)),
      ArrOp.stmt L B (.get (S.j i) t (.var vd) (.var vp) gs r nx o)]
  | .empty i a vp n1 o => .seqs [VOp.stmt L A (.get (S.k i) a (.const 1) n1 (vp + 348)),
      .ite .skip [cMem (vp + 348) .exactly 0] (VOp.stmt L A (.user [⟨o, .set, .const 1⟩])) (VOp.stmt L A (.user [⟨o, .set, .const 0⟩]))]
  | .user gs => .asg gs

/-- Stacks as lists, the top first; `none` before the constructor ran.  A history is out of bounds if it pushes to a full stack or pops from an empty one. -/
def SOp.spec (A : VArrs) (B : Arrs) (S : Stks) : SOp → (Nat → Option (List W)) × Mem → Option ((Nat → Option (List W)) × Mem)
  | .new i e _ _, (st, m) => if i < S.n ∧ e.valM m = epd (A.base (S.k i)) then some (fun i' => if i' = i then some [] else st i', m) else none
  | .push i a e x _ _ _ _ _ _ _ _ _, (st, m) =>
    if i < S.n ∧ a.valM m = BitVec.ofNat 32 (A.base (S.k i)) ∧ e.valM m = epd (A.base (S.k i)) then
      (st i).bind fun l => if l.length < B.len (S.j i) then some (fun i' => if i' = i then some (x.valM m :: l) else st i', m) else none
    else none
  | .pop i a e _ _ _ _ _ _ _ _ _ _ _ o, (st, m) =>
    if i < S.n ∧ a.valM m = BitVec.ofNat 32 (A.base (S.k i)) ∧ e.valM m = epd (A.base (S.k i)) then
      match st i with
      | some (w :: l) => some (fun i' => if i' = i then some l else st i', m.set o w)
      | _ => none
    else none
  | .empty i a _ _ o, (st, m) =>
    if i < S.n ∧ a.valM m = BitVec.ofNat 32 (A.base (S.k i)) then (st i).bind fun l => some (st, m.set o (if l = [] then 1 else 0)) else none
  | .user gs, (st, m) => some (st, runAsg gs m)

def SOp.run (A : VArrs) (B : Arrs) (S : Stks) : List SOp → (Nat → Option (List W)) × Mem → Option ((Nat → Option (List W)) × Mem)
  | [], a => some a
  | o :: os, a => (o.spec A B S a).bind (SOp.run A B S os)

/-- Places of temporaries. -/
structure TmpOk (L : Layout) (A : VArrs) (S : Stks) (v : Nat) : Prop where
  u : v + 348 ∈ A.U
  d : v + 348 ∉ S.D

def SOp.Ok (L : Layout) (A : VArrs) (B : Arrs) (S : Stks) : SOp → Prop
  | .new _ e _ _ => SrcIn S.D e
  | .push _ a e x vd vp vq p t _ _ _ _ => SrcIn S.D a ∧ SrcIn S.D e ∧ SrcIn S.D x ∧ (∀ v ∈ [vd, vp, vq], TmpOk L A S v) ∧ vd ≠ vp ∧ L.cell (vq + 348) ∧
      ISetOk L p t (.var vd) (.var vp) x ∧ (∀ y ∈ [t + 348, p, p + 16, p + 20], y ∉ B.U ∧ y ∉ B.rd ∧ ∀ k i, B.In k i → B.at k i ≠ y) ∧ Apart A [t + 348, p, p + 16, p + 20]
  | .pop _ a e vd vp vq t gs r _ _ _ _ _ o => SrcIn S.D a ∧ SrcIn S.D e ∧ (∀ v ∈ [vd, vp, vq], TmpOk L A S v) ∧ vd ≠ vp ∧ L.cell (vq + 348) ∧
      AddsTo t (.var vd) (.var vp) gs r ∧ vd ≠ t ∧ vp ≠ t ∧ AsgIn L B.U gs ∧ (∀ g ∈ gs, g.a ∉ S.D) ∧ RdOk L B.rend B.cpc o r ∧ o ∈ S.D
  | .empty _ a vp _ o => SrcIn S.D a ∧ TmpOk L A S vp ∧ L.cell (vp + 348) ∧ L.cell o ∧ o ∈ S.D
  | .user gs => AsgIn L S.D gs

structure StkOk (L : Layout) (A : VArrs) (B : Arrs) (S : Stks) : Prop where
  mix : MixOk L A B
  d : ∀ x ∈ S.D, x ∈ A.U
  k : ∀ i < S.n, S.k i < A.n ∧ 2 ≤ A.len (S.k i)
  j : ∀ i < S.n, S.j i < B.n
  cap : ∀ i < S.n, B.len (S.j i) < 2 ^ 32
  ki : ∀ i < S.n, ∀ i' < S.n, S.k i = S.k i' → i = i'
  ji : ∀ i < S.n, ∀ i' < S.n, S.j i = S.j i' → i = i'

/-- Stack `i` is `l`. -/
structure StkAt (B : Arrs) (S : Stks) (f g : Nat → Nat → W) (i : Nat) (l : List W) : Prop where
  data : f (S.k i) 0 = epd (B.base (S.j i))
  pos : f (S.k i) 1 = BitVec.ofNat 32 l.length
  le : l.length ≤ B.len (S.j i)
  el : ∀ m w, l.reverse[m]? = some w → g (S.j i) m = w

/-- The memory has the stacks `st`, and the program's dwords are those of `m`. -/
def StkIs (A : VArrs) (B : Arrs) (S : Stks) (s : Mem) (st : Nat → Option (List W)) (m : Mem) : Prop :=
  ∃ f g e, MixIs A B s f g e ∧ (∀ i < S.n, ∀ l, st i = some l → StkAt B S f g i l) ∧ ∀ x ∈ S.D, e x = m x

theorem runAsg_out : ∀ (gs : List Asg) (s : Mem) (x : Nat), (∀ g ∈ gs, g.a ≠ x) → runAsg gs s x = s x
  | [], _, _, _ => rfl
  | g :: gs, s, x, h => by
    show runAsg gs _ x = s x
    rw [runAsg_out gs _ x fun g h' => h g (by simp [h'])]
    exact set_ne (h g (by simp)).symm

theorem mixGet {L : Layout} {A : VArrs} {B : Arrs} (hM : MixOk L A B) {k nx d : Nat} {a : Src} {c : W} (ha : SrcIn A.U a) (hd : d ∈ A.U) {s : Mem} {f g : Nat → Nat → W} {e : Mem} (hI : MixIs A B s f g e)
    (hk : A.In k c.toNat) (hp : a.valM e = BitVec.ofNat 32 (A.base k)) :
    Does L (VOp.stmt L A (.get k a (.const c) nx d)) s fun s' => MixIs A B s' f g (e.set d (f k c.toNat)) :=
  mixV hM (op := .get k a (.const c) nx d) ⟨ha, (fun _ h => by cases h), hd⟩ hI (by simp only [VOp.spec, Src.valM]; exact if_pos ⟨hk, hp⟩)

theorem mixPut {L : Layout} {A : VArrs} {B : Arrs} (hM : MixOk L A B) {k nx : Nat} {b x : Src} {c : W} (hb : SrcIn A.U b) (hx : SrcIn A.U x) {s : Mem} {f g : Nat → Nat → W} {e : Mem} (hI : MixIs A B s f g e)
    (hk : A.In k c.toNat) (hp : b.valM e = epd (A.base k)) :
    Does L (VOp.stmt L A (.put k b x (.const c) nx)) s fun s' => MixIs A B s' (fun k' i' => if k' = k ∧ i' = c.toNat then x.valM e else f k' i') g e :=
  mixV hM (op := .put k b x (.const c) nx) ⟨hb, hx, fun _ h => by cases h⟩ hI (by simp only [VOp.spec, Src.valM]; exact if_pos ⟨hk, hp⟩)

theorem mixUser {L : Layout} {A : VArrs} {B : Arrs} (hM : MixOk L A B) {gs : List Asg} (hg : AsgIn L A.U gs) {s : Mem} {f g : Nat → Nat → W} {e : Mem} (hI : MixIs A B s f g e) :
    Does L (VOp.stmt L A (.user gs)) s fun s' => MixIs A B s' f g (runAsg gs e) :=
  mixV hM (op := .user gs) hg hI rfl

theorem asgIn_one {L : Layout} {U : List Nat} {a : Nat} {md : Mod} {c : W} (hc : L.cell a) (hu : a ∈ U) : AsgIn L U [⟨a, md, .const c⟩] :=
  ⟨fun g h => by simp only [List.mem_singleton] at h; subst h; exact ⟨hc, hu, fun _ h => by cases h⟩, fun g h v hv => by simp only [List.mem_singleton] at h; subst h; cases hv⟩

/-- Each operation on stacks does what it does on lists. -/
theorem stkStep {L : Layout} {A : VArrs} {B : Arrs} {S : Stks} (hS : StkOk L A B S) {op : SOp} (hop : op.Ok L A B S) {s : Mem} {st st' : Nat → Option (List W)} {m m' : Mem}
    (hI : StkIs A B S s st m) (hs : op.spec A B S (st, m) = some (st', m')) : Does L (op.stmt L A B S) s fun s' => StkIs A B S s' st' m' := by
  obtain ⟨f, g, e, hM, hst, hd⟩ := hI
  have up : ∀ {x : Src}, SrcIn S.D x → SrcIn A.U x := fun h v hv => hS.d _ (h v hv)
  have one : (1 : W).toNat = 1 := rfl
  have zer : (0 : W).toNat = 0 := rfl
  cases op with
  | new i b n1 n2 =>
    simp only [SOp.spec] at hs
    split at hs
    · rename_i hh
      simp only [Option.some.injEq, Prod.mk.injEq] at hs
      obtain ⟨rfl, rfl⟩ := hs
      obtain ⟨hi, hb⟩ := hh
      have hk := hS.k i hi
      have hb' : b.valM e = epd (A.base (S.k i)) := (valM_in hd hop).trans hb
      simp only [SOp.stmt, Stmt.seqs]
      refine Does.seq ((mixPut hS.mix (up hop) (fun _ h => by cases h) hM ⟨hk.1, by rw [zer]; omega⟩ hb').mono fun s1 h1 => ?_)
      refine Does.seq ((mixPut hS.mix (up hop) (fun _ h => by cases h) h1 ⟨hk.1, by rw [one]; omega⟩ hb').mono fun s2 h2 => Does.skip ?_)
      refine ⟨_, _, _, h2, fun i' hi' l hl => ?_, hd⟩
      dsimp only [Src.valM]
      simp only [one, zer] at *
      by_cases he : i' = i
      · subst he
        rw [if_pos rfl] at hl
        cases hl
        exact ⟨by simp, by simp, by simp, by simp⟩
      · rw [if_neg he] at hl
        have h := hst i' hi' l hl
        have hn : S.k i' ≠ S.k i := fun h => he (hS.ki _ hi' _ hi h)
        exact ⟨by simp [hn, h.data], by simp [hn, h.pos], h.le, h.el⟩
    · cases hs
  | push i a b x vd vp vq p t n1 n2 n3 n4 =>
    obtain ⟨o1, o2, o3, o4, o5, o6, o7, o8, o9⟩ := hop
    simp only [SOp.spec] at hs
    split at hs
    · rename_i hh
      obtain ⟨hi, hpa, hpb⟩ := hh
      cases hl : st i with
      | none => rw [hl] at hs; cases hs
      | some l =>
        rw [hl, Option.bind_some] at hs
        split at hs
        · rename_i hlen
          simp only [Option.some.injEq, Prod.mk.injEq] at hs
          obtain ⟨rfl, rfl⟩ := hs
          have hk := hS.k i hi
          have hat := hst i hi l hl
          have cap := hS.cap i hi
          have td := o4 vd (by simp)
          have tp := o4 vp (by simp)
          have tq := o4 vq (by simp)
          have k0 : A.In (S.k i) (0 : W).toNat := ⟨hk.1, by rw [zer]; omega⟩
          have k1 : A.In (S.k i) (1 : W).toNat := ⟨hk.1, by rw [one]; omega⟩
          simp only [SOp.stmt, Stmt.seqs]
          refine Does.seq ((mixGet hS.mix (up o1) td.u hM k0 ((valM_in hd o1).trans hpa)).mono fun s1 h1 => ?_)
          have d1 : ∀ y ∈ S.D, (e.set (vd + 348) (f (S.k i) (0 : W).toNat)) y = m y := fun y hy => by rw [set_ne (fun h : y = vd + 348 => td.d (h ▸ hy))]; exact hd y hy
          refine Does.seq ((mixGet hS.mix (up o1) tp.u h1 k1 ((valM_in d1 o1).trans hpa)).mono fun s2 h2 => ?_)
          generalize he2 : (e.set (vd + 348) (f (S.k i) (0 : W).toNat)).set (vp + 348) (f (S.k i) (1 : W).toNat) = e2 at h2
          have d2 : ∀ y ∈ S.D, e2 y = m y := fun y hy => by rw [← he2, set_ne (fun h : y = vp + 348 => tp.d (h ▸ hy))]; exact d1 y hy
          have e2d : e2 (vd + 348) = epd (B.base (S.j i)) := by
            rw [← he2, set_ne (by omega), set_eq, zer]; exact hat.data
          have e2p : e2 (vp + 348) = BitVec.ofNat 32 l.length := by
            rw [← he2, set_eq, one]; exact hat.pos
          have tn : (BitVec.ofNat 32 l.length).toNat = l.length := by
            rw [BitVec.toNat_ofNat, Nat.mod_eq_of_lt (by omega)]
          have xv : x.valM e2 = x.valM m := valM_in d2 o3
          refine Does.seq ((mixA hS.mix (op := .put (S.j i) p t false .set (.var vd) (.var vp) x)
            ⟨o7, fun v h => by cases h; exact hS.mix.u ▸ td.u, fun v h => by cases h; exact hS.mix.u ▸ tp.u, hS.mix.u ▸ up o3, o8⟩ o9 h2
            (g' := fun k' i' => if k' = S.j i ∧ i' = l.length then x.valM m else g k' i') (e' := e2) ?_).mono fun s3 h3 => ?_)
          · have kv : ((Src.var vp).valM e2).toNat = l.length := by rw [show (Src.var vp).valM e2 = e2 (vp + 348) from rfl, e2p, tn]
            simp only [ArrOp.spec]
            rw [if_pos ⟨⟨hS.j i hi, kv ▸ hlen⟩, e2d⟩, kv, xv]
            rfl
          · refine Does.seq ((mixGet hS.mix (up o1) tq.u h3 k1 ((valM_in d2 o1).trans hpa)).mono fun s4 h4 => ?_)
            refine Does.seq ((mixUser hS.mix (asgIn_one o6 tq.u) h4).mono fun s5 h5 => ?_)
            generalize he5 : runAsg _ _ = e5 at h5
            have d5 : ∀ y ∈ S.D, e5 y = m y := fun y hy => by
              rw [← he5, runAsg_out _ _ _ (by simp only [List.mem_singleton]; rintro g rfl h; have h : vq + 348 = y := h; exact tq.d (h ▸ hy)), set_ne (fun h : y = vq + 348 => tq.d (h ▸ hy))]; exact d2 y hy
            have e5q : e5 (vq + 348) = BitVec.ofNat 32 (l.length + 1) := by
              rw [← he5]
              simp only [runAsg, List.foldl, set_eq, arith, Src.valM, one, hat.pos]
              rw [BitVec.ofNat_add]; rfl
            refine Does.seq ((mixPut hS.mix (up o2) (x := .var vq) (fun v h => by cases h; exact tq.u) h5 k1 ((valM_in d5 o2).trans hpb)).mono fun s6 h6 => Does.skip ?_)
            refine ⟨_, _, _, h6, fun i' hi' l' hl' => ?_, d5⟩
            simp only [one, Src.valM, e5q]
            by_cases he : i' = i
            · subst he
              dsimp only at hl'; rw [if_pos rfl] at hl'
              cases hl'
              refine ⟨by simp [hat.data], by simp, by simp only [List.length_cons]; omega, fun q w hq => ?_⟩
              rw [List.reverse_cons] at hq
              by_cases hql : q = l.length
              · rw [if_pos ⟨rfl, hql⟩]
                rw [hql, List.getElem?_append_right (by simp)] at hq
                exact (by simpa using hq : x.valM m = w)
              · rw [if_neg (fun h => hql h.2)]
                by_cases hq2 : q < l.length
                · rw [List.getElem?_append_left (by simpa using hq2)] at hq
                  exact hat.el q w hq
                · rw [List.getElem?_eq_none (by simp; omega)] at hq
                  cases hq
            · dsimp only at hl'; rw [if_neg he] at hl'
              have h := hst i' hi' l' hl'
              have hn : S.k i' ≠ S.k i := fun h => he (hS.ki _ hi' _ hi h)
              have hj : S.j i' ≠ S.j i := fun h => he (hS.ji _ hi' _ hi h)
              exact ⟨by simp [h.data], by simp [hn, h.pos], h.le, by simpa [hj] using h.el⟩
        · cases hs
    · cases hs
  | pop i a b vd vp vq t gs r n1 n2 n3 n4 nx o =>
    obtain ⟨o1, o2, o4, o5, o6, o7, o8, o9, o10, o11, o12, o13⟩ := hop
    simp only [SOp.spec] at hs
    split at hs
    · rename_i hh
      obtain ⟨hi, hpa, hpb⟩ := hh
      split at hs
      · rename_i w l hl
        simp only [Option.some.injEq, Prod.mk.injEq] at hs
        obtain ⟨rfl, rfl⟩ := hs
        have hk := hS.k i hi
        have hat := hst i hi _ hl
        have cap := hS.cap i hi
        have hlen : l.length + 1 ≤ B.len (S.j i) := by simpa using hat.le
        have td := o4 vd (by simp)
        have tp := o4 vp (by simp)
        have tq := o4 vq (by simp)
        have k0 : A.In (S.k i) (0 : W).toNat := ⟨hk.1, by rw [zer]; omega⟩
        have k1 : A.In (S.k i) (1 : W).toNat := ⟨hk.1, by rw [one]; omega⟩
        simp only [SOp.stmt, Stmt.seqs]
        refine Does.seq ((mixGet hS.mix (up o1) tq.u hM k1 ((valM_in hd o1).trans hpa)).mono fun s1 h1 => ?_)
        refine Does.seq ((mixUser hS.mix (asgIn_one o6 tq.u) h1).mono fun s2 h2 => ?_)
        generalize he2 : runAsg _ _ = e2 at h2
        have d2 : ∀ y ∈ S.D, e2 y = m y := fun y hy => by
          rw [← he2, runAsg_out _ _ _ (by simp only [List.mem_singleton]; rintro g rfl h; have h : vq + 348 = y := h; exact tq.d (h ▸ hy)), set_ne (fun h : y = vq + 348 => tq.d (h ▸ hy))]; exact hd y hy
        have e2q : e2 (vq + 348) = BitVec.ofNat 32 l.length := by
          rw [← he2]
          simp only [runAsg, List.foldl, set_eq, arith, Src.valM, one, hat.pos, List.length_cons]
          rw [BitVec.ofNat_add, BitVec.add_assoc, show (BitVec.ofNat 32 1 + -1 : W) = 0 from rfl]
          simp
        refine Does.seq ((mixPut hS.mix (up o2) (x := .var vq) (fun v h => by cases h; exact tq.u) h2 k1 ((valM_in d2 o2).trans hpb)).mono fun s3 h3 => ?_)
        refine Does.seq ((mixGet hS.mix (up o1) td.u h3 k0 ((valM_in d2 o1).trans hpa)).mono fun s4 h4 => ?_)
        have d4 : ∀ (z : W) (y : Nat), y ∈ S.D → e2.set (vd + 348) z y = m y := fun z y hy => (set_ne (fun h : y = vd + 348 => td.d (h ▸ hy))).trans (d2 y hy)
        refine Does.seq ((mixGet hS.mix (up o1) tp.u h4 k1 ((valM_in (d4 _) o1).trans hpa)).mono fun s5 h5 => ?_)
        generalize he5 : (e2.set (vd + 348) _).set (vp + 348) _ = e5 at h5
        have d5 : ∀ y ∈ S.D, e5 y = m y := fun y hy => by rw [← he5, set_ne (fun h : y = vp + 348 => tp.d (h ▸ hy))]; exact d4 _ y hy
        have e5d : e5 (vd + 348) = epd (B.base (S.j i)) := by
          rw [← he5, set_ne (by omega), set_eq, zer, one]; simp [hat.data]
        have e5p : e5 (vp + 348) = BitVec.ofNat 32 l.length := by
          rw [← he5, set_eq, one]; simp [Src.valM, e2q]
        have tn : (BitVec.ofNat 32 l.length).toNat = l.length := by
          rw [BitVec.toNat_ofNat, Nat.mod_eq_of_lt (by omega)]
        have gw : g (S.j i) l.length = w := hat.el _ _ (by rw [List.reverse_cons, List.getElem?_append_right (by simp)]; simp)
        refine Does.seq ((mixA hS.mix (op := .get (S.j i) t (.var vd) (.var vp) gs r nx o)
            ⟨o7, fun v h => by rcases h with h | h <;> cases h <;> assumption, fun v h => by cases h; exact hS.mix.u ▸ td.u, fun v h => by cases h; exact hS.mix.u ▸ tp.u, o10, o12, hS.mix.u ▸ hS.d _ o13⟩ trivial h5
            (g' := g) (e' := (runAsg gs e5).set o w) ?_).mono fun s6 h6 => Does.skip ?_)
        · have kv : ((Src.var vp).valM e5).toNat = l.length := by rw [show (Src.var vp).valM e5 = e5 (vp + 348) from rfl, e5p, tn]
          simp only [ArrOp.spec]
          rw [if_pos ⟨⟨hS.j i hi, by rw [kv]; omega⟩, e5d⟩, kv, gw]
        · refine ⟨_, _, _, h6, fun i' hi' l' hl' => ?_, fun y hy => ?_⟩
          · simp only [one, Src.valM, e2q]
            by_cases he : i' = i
            · subst he
              dsimp only at hl'; rw [if_pos rfl] at hl'
              cases hl'
              refine ⟨by simp [hat.data], by simp, by omega, fun q w' hq => hat.el q w' ?_⟩
              rw [List.reverse_cons, List.getElem?_append_left, hq]
              exact (List.getElem?_eq_some_iff.1 hq).1
            · dsimp only at hl'; rw [if_neg he] at hl'
              have h := hst i' hi' l' hl'
              have hn : S.k i' ≠ S.k i := fun h => he (hS.ki _ hi' _ hi h)
              exact ⟨by simp [h.data], by simp [hn, h.pos], h.le, h.el⟩
          · rw [get_set, get_set, runAsg_out _ _ _ (fun g hg h => o11 g hg (h ▸ hy)), d5 y hy]
      · cases hs
    · cases hs
  | empty i a vp n1 o =>
    obtain ⟨o1, tp, o3, o4, o5⟩ := hop
    simp only [SOp.spec] at hs
    split at hs
    · rename_i hh
      obtain ⟨hi, hpa⟩ := hh
      cases hl : st i with
      | none => rw [hl] at hs; cases hs
      | some l =>
        rw [hl, Option.bind_some] at hs
        simp only [Option.some.injEq, Prod.mk.injEq] at hs
        obtain ⟨rfl, rfl⟩ := hs
        have hk := hS.k i hi
        have hat := hst i hi l hl
        have cap := hS.cap i hi
        have le := hat.le
        have k1 : A.In (S.k i) (1 : W).toNat := ⟨hk.1, by rw [one]; omega⟩
        simp only [SOp.stmt, Stmt.seqs]
        refine Does.seq ((mixGet hS.mix (up o1) tp.u hM k1 ((valM_in hd o1).trans hpa)).mono fun s1 h1 => ?_)
        have e1p : s1 (vp + 348) = BitVec.ofNat 32 l.length := by
          rw [h1.a.u _ tp.u]; simp only [set_eq, one]; exact hat.pos
        have hz : (s1 (vp + 348) == 0) = true ↔ l = [] := by
          rw [e1p, beq_iff_eq]
          constructor
          · intro h
            have := congrArg BitVec.toNat h
            rw [BitVec.toNat_ofNat, Nat.mod_eq_of_lt (by omega)] at this
            exact List.length_eq_zero_iff.1 this
          · rintro rfl; rfl
        have fin : ∀ (c : W) (s2 : Mem), MixIs A B s2 f g (runAsg [⟨o, .set, .const c⟩] (e.set (vp + 348) (f (S.k i) (1 : W).toNat))) → StkIs A B S s2 st (m.set o c) := by
          intro c s2 h2
          refine ⟨f, g, _, h2, hst, fun y hy => ?_⟩
          simp only [runAsg, List.foldl, arith, Src.valM]
          rw [get_set, get_set, get_set, if_neg (fun h : y = vp + 348 => tp.d (h ▸ hy)), hd y hy]
        refine Does.seq (Does.ite0 (by simp only [List.mem_singleton]; rintro _ rfl; exact cMem_ok o3 _ _ _) (fun hh => ?_) (fun hh => ?_))
        · have : l = [] := hz.1 (by simpa [holdsAll, compare] using hh)
          rw [if_pos this]
          exact (mixUser hS.mix (asgIn_one o4 (hS.d _ o5)) h1).mono fun s2 h2 => Does.skip (fin _ _ h2)
        · have : l ≠ [] := fun h => by have := hz.2 h; simp [holdsAll, compare] at hh; simp [hh] at this
          rw [if_neg this]
          exact (mixUser hS.mix (asgIn_one o4 (hS.d _ o5)) h1).mono fun s2 h2 => Does.skip (fin _ _ h2)
    · cases hs
  | user gs =>
    simp only [SOp.spec, Option.some.injEq, Prod.mk.injEq] at hs
    obtain ⟨rfl, rfl⟩ := hs
    obtain ⟨g1, g2⟩ := runAsg_in gs hd fun g h => (hop.1 g h).2
    refine (mixUser hS.mix (gs := gs) ⟨fun g h => ⟨(hop.1 g h).1, hS.d _ (hop.1 g h).2.1, up (hop.1 g h).2.2⟩, hop.2⟩ hM).mono fun s' h => ?_
    exact ⟨f, g, _, h, hst, g1⟩

/-- **C40.**  After any history of pushes and pops that stays within capacity, stacks are what lists are: `pop` yields the element pushed last that was not popped, `empty` whether there is one. -/
theorem C40_stack {L : Layout} {A : VArrs} {B : Arrs} {S : Stks} (hS : StkOk L A B S) : ∀ (ops : List SOp) (_ : ∀ o ∈ ops, o.Ok L A B S) {s : Mem} {st st' : Nat → Option (List W)} {m m' : Mem}
    (_ : StkIs A B S s st m) (_ : SOp.run A B S ops (st, m) = some (st', m')), Does L (.seqs (ops.map (SOp.stmt L A B S))) s fun s' => StkIs A B S s' st' m'
  | [], _, s, st, st', m, m', hI, hr => by
    simp only [SOp.run, Option.some.injEq, Prod.mk.injEq] at hr
    obtain ⟨rfl, rfl⟩ := hr
    exact Does.skip hI
  | o :: ops, ho, s, st, st', m, m', hI, hr => by
    simp only [SOp.run] at hr
    cases h1 : o.spec A B S (st, m) with
    | none => rw [h1] at hr; cases hr
    | some c =>
      obtain ⟨st1, m1⟩ := c
      rw [h1, Option.bind_some] at hr
      exact Does.seq ((stkStep hS (ho o (by simp)) hI h1).mono fun s1 hI1 => C40_stack hS ops (fun o' h => ho o' (by simp [h])) hI1 hr)

/-- Before any constructor ran. -/
theorem Stks.init {A : VArrs} {B : Arrs} {S : Stks} {s : Mem} {f g : Nat → Nat → W} (h : MixIs A B s f g s) : StkIs A B S s (fun _ => none) s :=
  ⟨f, g, s, h, (fun _ _ _ h => by cases h), fun _ _ => rfl⟩

end Eud.SC
