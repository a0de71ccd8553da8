/-
The trigger machine: the part of StarCraft's trigger interpreter that programs
emitted by eudplib run on.

This is the execution model the library is written against; it is stated in
core/rawtrigger/condition.py:48-66 (condition layout), core/rawtrigger/action.py:83-103
(action layout), the trigger layout written by rust/src/allocator/pbuffer.rs:135-174
and the comparison/modifier codes in core/rawtrigger/constenc.py.

Memory is a map from byte addresses of aligned dwords to 32-bit words.
Conditions and actions are decoded from memory at the moment they are executed, so
programs that modify their own triggers behave as in the game.

Simplifications (see DESIGN.md, trusted base):
* Only conditions `Deaths` (15), `Always` (22), `Never` (23) and action `SetDeaths`
  (45) are interpreted; anything else makes the machine stuck (`none`).
* Player groups (12, 14..26) make the machine stuck.
* The game sets bit 0 of the flag dword and uses byte 2407 while a trigger runs; only
  the net effect of a completed run is modelled.
-/

namespace Eud.SC

abbrev W := BitVec 32
abbrev Mem := Nat → W

/-- Store one dword. -/
def Mem.set (m : Mem) (a : Nat) (v : W) : Mem := fun x => if x = a then v else m x

/-- Address of the death counter of player 0, unit 0 (utils/etc.py:39, the constant of `EPD`). -/
def deathTable : Nat := 0x58A364

/-- Address holding the current player (core/curpl.py, `0x6509B0`). -/
def cpAddr : Nat := 0x6509B0

/-! ## Abstract conditions and actions -/

inductive Mod
  | set | add | sub
deriving DecidableEq, Repr

/-- core/rawtrigger/constenc.py `EncodeModifier`: SetTo 7, Add 8, Subtract 9. -/
def Mod.ofCode (c : BitVec 8) : Option Mod :=
  if c = 7 then some .set else if c = 8 then some .add else if c = 9 then some .sub else none

def Mod.code : Mod → BitVec 8
  | .set => 7 | .add => 8 | .sub => 9

inductive Cmp
  | atLeast | atMost | exactly
deriving DecidableEq, Repr

/-- core/rawtrigger/constenc.py `EncodeComparison`: AtLeast 0, AtMost 1, Exactly 10. -/
def Cmp.ofCode (c : BitVec 8) : Option Cmp :=
  if c = 0 then some .atLeast else if c = 1 then some .atMost else if c = 10 then some .exactly
  else none

def Cmp.code : Cmp → BitVec 8
  | .atLeast => 0 | .atMost => 1 | .exactly => 10

/-- Where a condition looks or an action writes: a fixed address, or the death
counter of the current player for a unit. -/
inductive Dst
  | mem (a : Nat)
  | cp (unit : Nat)
deriving DecidableEq, Repr

/-- Address denoted in a memory. -/
def Dst.addr (m : Mem) : Dst → Nat
  | .mem a => a
  | .cp u => (deathTable + 4 * (m cpAddr).toNat + 48 * u) % 2 ^ 32

/-- Decode player and unit fields. -/
def dstOf (p : W) (u : BitVec 16) : Option Dst :=
  if p.toNat = 13 then some (.cp u.toNat)
  else if p.toNat < 12 ∨ 27 ≤ p.toNat then
    some (.mem ((deathTable + 4 * p.toNat + 48 * u.toNat) % 2 ^ 32))
  else none

/-- The three modifiers: addition wraps, subtraction stops at zero. -/
def arith (md : Mod) (o v : W) : W :=
  match md with
  | .set => v
  | .add => o + v
  | .sub => if o < v then 0 else o - v

/-- The three modifiers restricted to the bits of `mask` (EUDX semantics; `mask` is all ones for
plain actions). -/
def modify (md : Mod) (old val mask : W) : W :=
  (old &&& ~~~mask) ||| (arith md (old &&& mask) (val &&& mask) &&& mask)

structure Act where
  dst : Dst
  mod : Mod
  val : W
  mask : W
deriving DecidableEq

def Act.apply (a : Act) (m : Mem) : Mem :=
  m.set (a.dst.addr m) (modify a.mod (m (a.dst.addr m)) a.val a.mask)

def compare (c : Cmp) (x y : W) : Bool :=
  match c with
  | .atLeast => y ≤ x
  | .atMost => x ≤ y
  | .exactly => x = y

inductive Cnd
  | check (dst : Dst) (cmp : Cmp) (val mask : W)
  | const (b : Bool)
deriving DecidableEq

def Cnd.holds (m : Mem) : Cnd → Bool
  | .check d c v k => compare c (m (d.addr m) &&& k) v
  | .const b => b

/-! ## Decoding from memory -/

/-- Magic number marking masked conditions and actions (stockact.py:877, `eudx=0x4353`). -/
def effMask (mask : W) (w7 : W) : W :=
  if w7.extractLsb' 16 16 = 0x4353 then mask else 0xFFFFFFFF

inductive DecA
  | stop | skip | act (a : Act) | bad
deriving DecidableEq

/-- Decode the action at address `a` (action.py:83-103). -/
def decodeAct (m : Mem) (a : Nat) : DecA :=
  let w6 := m (a + 24)
  let w7 := m (a + 28)
  if w6.extractLsb' 16 8 = 0 then .stop
  else if w7.getLsbD 1 then .skip
  else if w6.extractLsb' 16 8 = 45 then
    match Mod.ofCode (w6.extractLsb' 24 8), dstOf (m (a + 16)) (w6.extractLsb' 0 16) with
    | some md, some d => .act ⟨d, md, m (a + 20), effMask (m a) w7⟩
    | _, _ => .bad
  else .bad

inductive DecC
  | stop | cond (c : Cnd) | bad
deriving DecidableEq

/-- Decode the condition at address `a` (condition.py:48-66). -/
def decodeCond (m : Mem) (a : Nat) : DecC :=
  let w3 := m (a + 12)
  let w4 := m (a + 16)
  let typ := w3.extractLsb' 24 8
  if typ = 0 then .stop
  else if w4.getLsbD 9 then .cond (.const true)
  else if typ = 22 then .cond (.const true)
  else if typ = 23 then .cond (.const false)
  else if typ = 15 then
    match Cmp.ofCode (w3.extractLsb' 16 8), dstOf (m (a + 4)) (w3.extractLsb' 0 16) with
    | some c, some d => .cond (.check d c (m (a + 8)) (effMask (m a) w4))
    | _, _ => .bad
  else .bad

/-- Evaluate at most `n` conditions starting at address `a`. -/
def runConds (m : Mem) : Nat → Nat → Option Bool
  | 0, _ => some true
  | n + 1, a =>
    match decodeCond m a with
    | .stop => some true
    | .cond c => if c.holds m then runConds m n (a + 20) else some false
    | .bad => none

/-- Execute at most `n` actions starting at address `a`. -/
def runActs : Nat → Mem → Nat → Option Mem
  | 0, m, _ => some m
  | n + 1, m, a =>
    match decodeAct m a with
    | .stop => some m
    | .skip => runActs n m (a + 32)
    | .act x => runActs n (x.apply m) (a + 32)
    | .bad => none

structure State where
  mem : Mem
  pc : Nat

/-- Flag dword after a completed run: bit 0 is cleared and, without the preserve
bit (4), the trigger is disabled (8). -/
def flagsDone (f : W) : W :=
  if f.getLsbD 2 then f &&& ~~~1 else (f &&& ~~~1) ||| 8

/-- One trigger: skipped when disabled (flag 8); when flag 1 is set the conditions
count as met and execution starts at the action index in byte 2407; otherwise all
conditions are evaluated first.  Then go to the `nextptr` as it is after the actions. -/
def step (s : State) : Option State :=
  let f := s.mem (s.pc + 2376)
  if f.getLsbD 3 then some ⟨s.mem, (s.mem (s.pc + 4)).toNat⟩
  else
    let started := f.getLsbD 0
    let idx := if started then ((s.mem (s.pc + 2404)).extractLsb' 24 8).toNat else 0
    match (if started then some true else runConds s.mem 16 (s.pc + 8)) with
    | none => none
    | some false => some ⟨s.mem, (s.mem (s.pc + 4)).toNat⟩
    | some true =>
      match runActs (64 - idx) s.mem (s.pc + 328 + 32 * idx) with
      | none => none
      | some m =>
        let m := m.set (s.pc + 2376) (flagsDone (m (s.pc + 2376)))
        some ⟨m, (m (s.pc + 4)).toNat⟩

def stepN : Nat → State → Option State
  | 0, s => some s
  | n + 1, s => (step s).bind (stepN n)

/-- `s` reaches `s'` in finitely many trigger executions. -/
def Reaches (s s' : State) : Prop := ∃ n, stepN n s = some s'

theorem stepN_add (a b : Nat) (s : State) : stepN (a + b) s = (stepN a s).bind (stepN b) := by
  induction a generalizing s with
  | zero => simp [stepN]
  | succ a ih =>
    rw [show a + 1 + b = (a + b) + 1 by omega]
    simp only [stepN]
    cases step s with
    | none => rfl
    | some s' => exact ih s'

theorem Reaches.refl (s : State) : Reaches s s := ⟨0, rfl⟩

theorem Reaches.trans {a b c : State} (h1 : Reaches a b) (h2 : Reaches b c) : Reaches a c := by
  obtain ⟨n, hn⟩ := h1
  obtain ⟨k, hk⟩ := h2
  exact ⟨n + k, by rw [stepN_add, hn]; exact hk⟩

theorem Reaches.step {a b : State} (h : Eud.SC.step a = some b) : Reaches a b :=
  ⟨1, by simp [stepN, h]⟩

theorem Reaches.head {a b c : State} (h : Eud.SC.step a = some b) (h2 : Reaches b c) : Reaches a c :=
  (Reaches.step h).trans h2

/-! ## Triggers as data -/

structure Trig where
  conds : List Cnd
  acts : List Act

/-- What the trigger does to memory when executed as written. -/
def Trig.exec (T : Trig) (m : Mem) : Mem :=
  if T.conds.all (·.holds m) then T.acts.foldl (fun m a => a.apply m) m else m

/-- The memory contains trigger `T` at address `t`: each condition and action decodes
to the given one, lists are terminated, and the flag dword says enabled and preserved. -/
structure TrigAt (m : Mem) (t : Nat) (T : Trig) : Prop where
  cl : T.conds.length ≤ 16
  al : T.acts.length ≤ 64
  cond : ∀ i (h : i < T.conds.length), decodeCond m (t + 8 + 20 * i) = .cond T.conds[i]
  cend : T.conds.length < 16 → decodeCond m (t + 8 + 20 * T.conds.length) = .stop
  act : ∀ i (h : i < T.acts.length), decodeAct m (t + 328 + 32 * i) = .act T.acts[i]
  aend : T.acts.length < 64 → decodeAct m (t + 328 + 32 * T.acts.length) = .stop
  f0 : (m (t + 2376)).getLsbD 0 = false
  f2 : (m (t + 2376)).getLsbD 2 = true
  f3 : (m (t + 2376)).getLsbD 3 = false

/-- The dwords that decoding a trigger with `nc` conditions and `na` actions may look
at, except for the `nextptr`. -/
def CodeFoot (t nc na x : Nat) : Prop :=
  (t + 8 ≤ x ∧ x < t + 8 + 20 * min (nc + 1) 16) ∨
  (t + 328 ≤ x ∧ x < t + 328 + 32 * min (na + 1) 64) ∨ x = t + 2376

def Trig.foot (T : Trig) (t x : Nat) : Prop := CodeFoot t T.conds.length T.acts.length x

instance (t nc na x : Nat) : Decidable (CodeFoot t nc na x) := by
  unfold CodeFoot; infer_instance

instance (T : Trig) (t x : Nat) : Decidable (T.foot t x) := by
  unfold Trig.foot; infer_instance

theorem set_ne {m : Mem} {a x : Nat} {v : W} (h : x ≠ a) : m.set a v x = m x := by
  simp [Mem.set, h]

theorem set_eq (m : Mem) (a : Nat) (v : W) : m.set a v a = v := by simp [Mem.set]

theorem set_self (m : Mem) (a : Nat) : m.set a (m a) = m := by
  funext x; unfold Mem.set; split <;> simp_all

theorem decodeAct_congr {m m' : Mem} {a : Nat}
    (h : ∀ x, a ≤ x → x < a + 32 → m x = m' x) : decodeAct m a = decodeAct m' a := by
  unfold decodeAct
  rw [h (a + 24) (by omega) (by omega), h (a + 28) (by omega) (by omega),
    h (a + 16) (by omega) (by omega), h (a + 20) (by omega) (by omega), h a (by omega) (by omega)]

theorem decodeCond_congr {m m' : Mem} {a : Nat}
    (h : ∀ x, a ≤ x → x < a + 20 → m x = m' x) : decodeCond m a = decodeCond m' a := by
  unfold decodeCond
  rw [h (a + 12) (by omega) (by omega), h (a + 16) (by omega) (by omega),
    h (a + 4) (by omega) (by omega), h (a + 8) (by omega) (by omega), h a (by omega) (by omega)]

/-- A trigger stays in place when its dwords do not change. -/
theorem TrigAt.congr {m m' : Mem} {t : Nat} {T : Trig} (h : TrigAt m t T)
    (hm : ∀ x, T.foot t x → m' x = m x) : TrigAt m' t T := by
  have hc := h.cl
  have ha := h.al
  refine ⟨h.cl, h.al, ?_, ?_, ?_, ?_, ?_, ?_, ?_⟩
  · intro i hi
    rw [← h.cond i hi]
    apply decodeCond_congr
    intro x h1 h2
    exact hm x (Or.inl ⟨by omega, by omega⟩)
  · intro hl
    rw [← h.cend hl]
    apply decodeCond_congr
    intro x h1 h2
    exact hm x (Or.inl ⟨by omega, by omega⟩)
  · intro i hi
    rw [← h.act i hi]
    apply decodeAct_congr
    intro x h1 h2
    exact hm x (Or.inr (Or.inl ⟨by omega, by omega⟩))
  · intro hl
    rw [← h.aend hl]
    apply decodeAct_congr
    intro x h1 h2
    exact hm x (Or.inr (Or.inl ⟨by omega, by omega⟩))
  all_goals
    rw [hm _ (Or.inr (Or.inr rfl))]
    first | exact h.f0 | exact h.f2 | exact h.f3

/-- Every action, at the time it runs, writes outside of the set `F`. -/
def SafeActs (F : Nat → Prop) : Mem → List Act → Prop
  | _, [] => True
  | m, a :: as => ¬ F (a.dst.addr m) ∧ SafeActs F (a.apply m) as

theorem SafeActs.frame {F : Nat → Prop} : ∀ {as : List Act} {m : Mem}, SafeActs F m as →
    ∀ x, F x → (as.foldl (fun m a => a.apply m) m) x = m x
  | [], _, _, _, _ => rfl
  | a :: as, m, h, x, hx => by
    simp only [List.foldl_cons]
    rw [h.2.frame x hx]
    unfold Act.apply
    exact set_ne (fun he => h.1 (he ▸ hx))

/-- Fixed destinations outside of `F`. -/
theorem SafeActs.of_static {F : Nat → Prop} : ∀ {as : List Act} (m : Mem),
    (∀ a ∈ as, ∃ x, a.dst = .mem x ∧ ¬ F x) → SafeActs F m as
  | [], _, _ => trivial
  | a :: as, m, h => by
    obtain ⟨x, hx, hf⟩ := h a (by simp)
    refine ⟨by rw [hx]; exact hf, SafeActs.of_static _ (fun b hb => h b (by simp [hb]))⟩

theorem runConds_spec {m : Mem} : ∀ (cs : List Cnd) (n a : Nat), cs.length ≤ n →
    (∀ i (h : i < cs.length), decodeCond m (a + 20 * i) = .cond cs[i]) →
    (cs.length < n → decodeCond m (a + 20 * cs.length) = .stop) →
    runConds m n a = some (cs.all (·.holds m))
  | [], n, a, _, _, he => by
    cases n with
    | zero => rfl
    | succ n =>
      have := he (by simp)
      simp only [List.length_nil, Nat.mul_zero, Nat.add_zero] at this
      simp [runConds, this]
  | c :: cs, n, a, hl, hi, he => by
    cases n with
    | zero => simp at hl
    | succ n =>
      have h0 := hi 0 (by simp)
      simp only [Nat.mul_zero, Nat.add_zero, List.getElem_cons_zero] at h0
      simp only [runConds, h0, List.all_cons]
      cases hc : c.holds m with
      | false => simp
      | true =>
        simp only [if_true, Bool.true_and]
        apply runConds_spec cs n (a + 20) (by simp at hl; omega)
        · intro i h
          have := hi (i + 1) (by simp; omega)
          simp only [List.getElem_cons_succ] at this
          rw [← this]
          congr 1; omega
        · intro h
          have := he (by simp; omega)
          simp only [List.length_cons] at this
          rw [← this]
          congr 1; omega

theorem runActs_spec : ∀ (as : List Act) (n a : Nat) (m : Mem), as.length ≤ n →
    (∀ i (h : i < as.length), decodeAct m (a + 32 * i) = .act as[i]) →
    (as.length < n → decodeAct m (a + 32 * as.length) = .stop) →
    SafeActs (fun x => a ≤ x ∧ x < a + 32 * min (as.length + 1) n) m as →
    runActs n m a = some (as.foldl (fun m a => a.apply m) m)
  | [], n, a, m, _, _, he, _ => by
    cases n with
    | zero => rfl
    | succ n =>
      have := he (by simp)
      simp only [List.length_nil, Nat.mul_zero, Nat.add_zero] at this
      simp [runActs, this]
  | x :: as, n, a, m, hl, hi, he, hs => by
    cases n with
    | zero => simp at hl
    | succ n =>
      have h0 := hi 0 (by simp)
      simp only [Nat.mul_zero, Nat.add_zero, List.getElem_cons_zero] at h0
      simp only [runActs, h0, List.foldl_cons]
      simp only [List.length_cons] at hl he hs hi
      have hfr : ∀ y, a ≤ y → y < a + 32 * min (as.length + 1 + 1) (n + 1) → (x.apply m) y = m y := by
        intro y h1 h2
        unfold Act.apply
        exact set_ne (fun he => hs.1 (he ▸ ⟨h1, h2⟩))
      apply runActs_spec as n (a + 32) (x.apply m) (by omega)
      · intro i h
        have := hi (i + 1) (by omega)
        simp only [List.getElem_cons_succ] at this
        rw [← this, show a + 32 * (i + 1) = a + 32 + 32 * i by omega]
        apply decodeAct_congr
        intro y h1 h2
        exact hfr y (by omega) (by omega)
      · intro h
        have := he (by omega)
        rw [← this, show a + 32 * (as.length + 1) = a + 32 + 32 * as.length by omega]
        apply decodeAct_congr
        intro y h1 h2
        exact hfr y (by omega) (by omega)
      · have : ∀ (as' : List Act) (m' : Mem),
            SafeActs (fun x => a ≤ x ∧ x < a + 32 * min (as.length + 1 + 1) (n + 1)) m' as' →
            SafeActs (fun x => a + 32 ≤ x ∧ x < a + 32 + 32 * min (as.length + 1) n) m' as' := by
          intro as'
          induction as' with
          | nil => intro _ _; trivial
          | cons b bs ih =>
            intro m' h
            exact ⟨fun hb => h.1 ⟨by omega, by omega⟩, ih _ h.2⟩
        exact this _ _ hs.2

theorem SafeActs.mono {F G : Nat → Prop} (hFG : ∀ x, G x → F x) : ∀ {as : List Act} {m : Mem},
    SafeActs F m as → SafeActs G m as
  | [], _, _ => trivial
  | _ :: _, _, h => ⟨fun hg => h.1 (hFG _ hg), SafeActs.mono hFG h.2⟩

theorem flagsDone_id {f : W} (h0 : f.getLsbD 0 = false) (h2 : f.getLsbD 2 = true) : flagsDone f = f := by
  unfold flagsDone
  rw [if_pos h2]
  ext i hi
  simp only [BitVec.getElem_and, BitVec.getElem_not]
  by_cases hz : i = 0
  · subst hz
    rw [BitVec.getLsbD_eq_getElem (by omega)] at h0
    rw [h0]; rfl
  · have : (1 : BitVec 32)[i] = false := by
      rw [← BitVec.getLsbD_eq_getElem]
      show (1#32).getLsbD i = false
      rw [BitVec.getLsbD_one]
      simp [hz]
    rw [this]; simp

/-- **Executing a trigger.** If the trigger in memory does not overwrite its own
dwords, a step runs it as written and continues at its `nextptr`. -/
theorem step_trig {m : Mem} {t : Nat} {T : Trig} (h : TrigAt m t T)
    (hs : T.conds.all (·.holds m) = true → SafeActs (T.foot t) m T.acts) :
    step ⟨m, t⟩ = some ⟨T.exec m, ((T.exec m) (t + 4)).toNat⟩ := by
  unfold step Trig.exec
  simp only [h.f3, h.f0, Bool.false_eq_true, if_false]
  rw [runConds_spec T.conds 16 (t + 8) h.cl h.cond h.cend]
  cases hc : T.conds.all (·.holds m) with
  | false => simp
  | true =>
    have hsa := hs hc
    simp only [Nat.sub_zero, Nat.mul_zero, Nat.add_zero, if_true]
    rw [runActs_spec T.acts 64 (t + 328) m h.al h.act h.aend
      (hsa.mono (fun x hx => Or.inr (Or.inl hx)))]
    simp only
    have hf : ∀ x, T.foot t x → (T.acts.foldl (fun m a => a.apply m) m) x = m x := hsa.frame
    have hfl := hf (t + 2376) (Or.inr (Or.inr rfl))
    rw [flagsDone_id (by rw [hfl]; exact h.f0) (by rw [hfl]; exact h.f2), set_self]

/-- The code survives its own execution. -/
theorem Trig.exec_frame {T : Trig} {F : Nat → Prop} {m : Mem}
    (hs : T.conds.all (·.holds m) = true → SafeActs F m T.acts) (x : Nat) (hx : F x) :
    T.exec m x = m x := by
  unfold Trig.exec
  split
  · exact (hs ‹_›).frame x hx
  · rfl

end Eud.SC
