import Verif.Machine.SeqVars
/-
Triggers with holes: conditions and actions some of whose fields (destination, value, mask) are
read from memory at the moment they run, because the program itself writes into them.  eudplib
does this by using the address of an `Action` or `Condition` object plus an offset as a
destination (action.py:83-103 and condition.py:48-66 give the offsets).

A field given as `none` is a hole.  Only the dwords that are not holes and that the game looks at
belong to the fixed part of the program.
-/

namespace Eud.SC

/-- An action with holes: destination at offset 16 (unit 0), value at 20, mask at 0. -/
structure SAct where
  dst : Option Dst
  mod : Mod
  val : Option W
  mask : Option W
deriving DecidableEq

/-- A condition with holes: destination at offset 4 (unit 0), value at 8, mask at 0. -/
inductive SCnd
  | check (dst : Option Dst) (cmp : Cmp) (val mask : Option W)
  | const (b : Bool)
deriving DecidableEq

/-- Fixed dwords of an action (action.py:83-103); `none` where nothing is fixed. -/
def SAct.word (s : SAct) : Nat → Option W
  | 0 => match s.mask with | some k => if k = 0xFFFFFFFF then none else some k | none => none
  | 4 => s.dst.map (fun d => (dstFields d).1)
  | 5 => s.val
  | 6 => some (s.mod.code ++ (45 : BitVec 8) ++ ((s.dst.map (fun d => (dstFields d).2)).getD 0))
  | 7 => some ((if s.mask = some 0xFFFFFFFF then (0 : BitVec 16) else 0x4353) ++ (20 : BitVec 16))
  | _ => none

/-- Fixed dwords of a condition (condition.py:48-66). -/
def SCnd.word : SCnd → Nat → Option W
  | .check _ _ _ k, 0 => match k with | some k => if k = 0xFFFFFFFF then none else some k | none => none
  | .check d _ _ _, 1 => d.map (fun d => (dstFields d).1)
  | .check _ _ v _, 2 => v
  | .check d c _ _, 3 => some ((15 : BitVec 8) ++ c.code ++ ((d.map (fun d => (dstFields d).2)).getD 0))
  | .check _ _ _ k, 4 => some ((if k = some 0xFFFFFFFF then (0 : BitVec 16) else 0x4353) ++ (0 : BitVec 16))
  | .const b, 3 => some ((if b then (22 : BitVec 8) else 23) ++ (0 : BitVec 24))
  | .const _, 4 => some 0
  | _, _ => none

/-- The action at address `x` as it is at the moment. -/
def SAct.res (s : SAct) (m : Mem) (x : Nat) : Act :=
  ⟨s.dst.getD ((dstOf (m (x + 16)) 0).getD (.mem 0)), s.mod, s.val.getD (m (x + 20)), s.mask.getD (m x)⟩

/-- The condition at address `x` as it is at the moment. -/
def SCnd.res (s : SCnd) (m : Mem) (x : Nat) : Cnd :=
  match s with
  | .check d c v k =>
    .check (d.getD ((dstOf (m (x + 4)) 0).getD (.mem 0))) c (v.getD (m (x + 8))) (k.getD (m x))
  | .const b => .const b

/-- The destination hole, if it is one, holds something the game accepts. -/
def SAct.Ready (s : SAct) (m : Mem) (x : Nat) : Prop :=
  s.dst = none → (dstOf (m (x + 16)) 0).isSome = true

def SCnd.Ready (s : SCnd) (m : Mem) (x : Nat) : Prop :=
  match s with
  | .check none _ _ _ => (dstOf (m (x + 4)) 0).isSome = true
  | _ => True

def SAct.Valid (s : SAct) : Prop := ∀ d, s.dst = some d → d.Valid
def SCnd.Valid (s : SCnd) : Prop := match s with | .check (some d) _ _ _ => d.Valid | _ => True

def SActAt (m : Mem) (x : Nat) (s : SAct) : Prop :=
  s.Valid ∧ ∀ j < 8, ∀ w, s.word j = some w → m (x + 4 * j) = w

def SCndAt (m : Mem) (x : Nat) (s : SCnd) : Prop :=
  s.Valid ∧ ∀ j < 5, ∀ w, s.word j = some w → m (x + 4 * j) = w

theorem decodeAct_sym {m : Mem} {x : Nat} {s : SAct} (h : SActAt m x s) (hr : s.Ready m x) :
    decodeAct m x = .act (s.res m x) := by
  obtain ⟨hv, h⟩ := h
  obtain ⟨d, md, v, k⟩ := s
  have h0 := h 0 (by omega)
  have h4 := h 4 (by omega)
  have h5 := h 5 (by omega)
  have h6 := h 6 (by omega) _ rfl
  have h7 := h 7 (by omega) _ rfl
  simp only [Nat.mul_zero, Nat.add_zero, Nat.reduceMul, SAct.word] at h0 h4 h5 h6 h7
  have hb : ∀ c : BitVec 16, ((c ++ (20 : BitVec 16)) : BitVec 32).getLsbD 1 = false := by
    intro c; rw [BitVec.getLsbD_append, if_pos (by omega)]; decide
  have hd : dstOf (m (x + 16)) ((d.map (fun d => (dstFields d).2)).getD 0)
      = some (d.getD ((dstOf (m (x + 16)) 0).getD (.mem 0))) := by
    cases d with
    | none =>
      have hs := hr rfl
      simp only [Option.map_none, Option.getD_none]
      cases hq : dstOf (m (x + 16)) 0 with
      | none => rw [hq] at hs; simp at hs
      | some q => simp
    | some d =>
      have := h4 (dstFields d).1 rfl
      simp only [Option.map_some, Option.getD_some, this]
      exact dstOf_fields (hv d rfl)
  have hvv : m (x + 20) = v.getD (m (x + 20)) := by
    cases v with
    | none => rfl
    | some v => simp only [Option.getD_some]; exact h5 v rfl
  unfold decodeAct
  simp only [h6, h7, cat_hi, cat_mid, cat_lo, ofCode_code, cat16_hi, hb, hd, effMask]
  have hk : (if (if k = some 0xFFFFFFFF then (0 : BitVec 16) else 0x4353) = 0x4353 then m x
      else (0xFFFFFFFF : W)) = k.getD (m x) := by
    cases k with
    | none => simp
    | some k =>
      by_cases hk : k = 0xFFFFFFFF
      · subst hk; simp
      · have := h0 k (if_neg hk)
        simp only [Option.getD_some, Option.some.injEq, if_neg hk, if_true, this]
  simp only [hk]
  have : (45 : BitVec 8) ≠ 0 := by decide
  simp only [this, if_false, if_true, Bool.false_eq_true]
  unfold SAct.res
  simp only
  rw [← hvv]

theorem decodeCond_sym {m : Mem} {x : Nat} {s : SCnd} (h : SCndAt m x s) (hr : s.Ready m x) :
    decodeCond m x = .cond (s.res m x) := by
  obtain ⟨hv, h⟩ := h
  cases s with
  | const b =>
    have h3 := h 3 (by omega) _ rfl
    have h4 := h 4 (by omega) _ rfl
    simp only [Nat.reduceMul] at h3 h4
    unfold decodeCond
    simp only [h3, h4]
    cases b <;> rfl
  | check d c v k =>
    have h0 := h 0 (by omega)
    have h1 := h 1 (by omega)
    have h2 := h 2 (by omega)
    have h3 := h 3 (by omega) _ rfl
    have h4 := h 4 (by omega) _ rfl
    simp only [Nat.mul_zero, Nat.add_zero, Nat.reduceMul, SCnd.word] at h0 h1 h2 h3 h4
    have hb : ∀ c : BitVec 16, ((c ++ (0 : BitVec 16)) : BitVec 32).getLsbD 9 = false := by
      intro c; rw [BitVec.getLsbD_append, if_pos (by omega)]; decide
    have hd : dstOf (m (x + 4)) ((d.map (fun d => (dstFields d).2)).getD 0)
        = some (d.getD ((dstOf (m (x + 4)) 0).getD (.mem 0))) := by
      cases d with
      | none =>
        simp only [SCnd.Ready] at hr
        simp only [Option.map_none, Option.getD_none]
        cases hq : dstOf (m (x + 4)) 0 with
        | none => rw [hq] at hr; simp at hr
        | some q => simp
      | some d =>
        have := h1 (dstFields d).1 rfl
        simp only [Option.map_some, Option.getD_some, this]
        exact dstOf_fields hv
    have hvv : m (x + 8) = v.getD (m (x + 8)) := by
      cases v with
      | none => rfl
      | some v => simp only [Option.getD_some]; exact h2 v rfl
    unfold decodeCond
    simp only [h3, h4, cat_hi, cat_mid, cat_lo, cmp_ofCode_code, cat16_hi, hb, hd, effMask]
    have hk : (if (if k = some 0xFFFFFFFF then (0 : BitVec 16) else 0x4353) = 0x4353 then m x
        else (0xFFFFFFFF : W)) = k.getD (m x) := by
      cases k with
      | none => simp
      | some k =>
        by_cases hk : k = 0xFFFFFFFF
        · subst hk; simp
        · have := h0 k (if_neg hk)
          simp only [Option.getD_some, Option.some.injEq, if_neg hk, if_true, this]
    simp only [hk]
    have e0 : (15 : BitVec 8) ≠ 0 := by decide
    have e1 : (15 : BitVec 8) ≠ 22 := by decide
    have e2 : (15 : BitVec 8) ≠ 23 := by decide
    simp only [e0, e1, e2, if_false, if_true, Bool.false_eq_true]
    unfold SCnd.res
    simp only
    rw [← hvv]

/-! ## Triggers -/

structure STrig where
  conds : List SCnd
  acts : List SAct

/-- A trigger of a program with holes.  `next = none`: the `nextptr` is written at run time.
`once`: the trigger is not preserved (rawtriggerdef.py:99-103, flag dword 0 instead of 4), so that
its flag dword changes when it runs. -/
structure SBlk where
  t : Nat
  T : STrig
  next : Option Nat
  once : Bool := false

structure SBlkAt (m : Mem) (b : SBlk) : Prop where
  cl : b.T.conds.length ≤ 16
  al : b.T.acts.length ≤ 64
  cond : ∀ i (h : i < b.T.conds.length), SCndAt m (b.t + 8 + 20 * i) b.T.conds[i]
  cend : b.T.conds.length < 16 → m (b.t + 8 + 20 * b.T.conds.length + 12) = 0
  act : ∀ i (h : i < b.T.acts.length), SActAt m (b.t + 328 + 32 * i) b.T.acts[i]
  aend : b.T.acts.length < 64 → m (b.t + 328 + 32 * b.T.acts.length + 24) = 0
  flags : b.once = false → m (b.t + 2376) = 4
  next : ∀ n, b.next = some n → m (b.t + 4) = BitVec.ofNat 32 n ∧ n < 2 ^ 32

/-- The fixed dwords of a trigger. -/
def SBlk.foot (b : SBlk) (x : Nat) : Prop :=
  (∃ i, ∃ h : i < b.T.conds.length, ∃ j, j < 5 ∧ (b.T.conds[i].word j).isSome = true ∧
    x = b.t + 8 + 20 * i + 4 * j) ∨
  (b.T.conds.length < 16 ∧ x = b.t + 8 + 20 * b.T.conds.length + 12) ∨
  (∃ i, ∃ h : i < b.T.acts.length, ∃ j, j < 8 ∧ (b.T.acts[i].word j).isSome = true ∧
    x = b.t + 328 + 32 * i + 4 * j) ∨
  (b.T.acts.length < 64 ∧ x = b.t + 328 + 32 * b.T.acts.length + 24) ∨
  (b.once = false ∧ x = b.t + 2376) ∨
  (b.next.isSome = true ∧ x = b.t + 4)

/-- Holes and everything else outside of the foot may change. -/
theorem SBlkAt.congr {m m' : Mem} {b : SBlk} (h : SBlkAt m b) (hm : ∀ x, b.foot x → m' x = m x) :
    SBlkAt m' b := by
  refine ⟨h.cl, h.al, ?_, ?_, ?_, ?_, ?_, ?_⟩
  · intro i hi
    refine ⟨(h.cond i hi).1, fun j hj w hw => ?_⟩
    rw [hm _ (Or.inl ⟨i, hi, j, hj, by rw [hw]; rfl, rfl⟩)]
    exact (h.cond i hi).2 j hj w hw
  · intro hl
    rw [hm _ (Or.inr (Or.inl ⟨hl, rfl⟩))]
    exact h.cend hl
  · intro i hi
    refine ⟨(h.act i hi).1, fun j hj w hw => ?_⟩
    rw [hm _ (Or.inr (Or.inr (Or.inl ⟨i, hi, j, hj, by rw [hw]; rfl, rfl⟩)))]
    exact (h.act i hi).2 j hj w hw
  · intro hl
    rw [hm _ (Or.inr (Or.inr (Or.inr (Or.inl ⟨hl, rfl⟩))))]
    exact h.aend hl
  · intro ho
    rw [hm _ (Or.inr (Or.inr (Or.inr (Or.inr (Or.inl ⟨ho, rfl⟩)))))]
    exact h.flags ho
  · intro n hn
    rw [hm _ (Or.inr (Or.inr (Or.inr (Or.inr (Or.inr ⟨by rw [hn]; rfl, rfl⟩)))))]
    exact h.next n hn

/-! ## Execution -/

/-- Run actions one after the other, each as it is in memory when its turn comes. -/
def runS : List SAct → Nat → Mem → Mem
  | [], _, m => m
  | s :: ss, x, m => runS ss (x + 32) ((s.res m x).apply m)

/-- Every action writes, when its turn comes, outside of `F`. -/
def SafeS (F : Nat → Prop) : List SAct → Nat → Mem → Prop
  | [], _, _ => True
  | s :: ss, x, m => s.Ready m x ∧ ¬ F ((s.res m x).dst.addr m) ∧
      SafeS F ss (x + 32) ((s.res m x).apply m)

/-- All conditions, as they are in memory now. -/
def condsS (m : Mem) : List SCnd → Nat → Bool
  | [], _ => true
  | s :: ss, x => (s.res m x).holds m && condsS m ss (x + 20)

def readyS (m : Mem) : List SCnd → Nat → Prop
  | [], _ => True
  | s :: ss, x => s.Ready m x ∧ readyS m ss (x + 20)

theorem SafeS.frame {F : Nat → Prop} : ∀ {ss : List SAct} {x : Nat} {m : Mem}, SafeS F ss x m →
    ∀ y, F y → runS ss x m y = m y
  | [], _, _, _, _, _ => rfl
  | s :: ss, x, m, h, y, hy => by
    simp only [runS]
    rw [h.2.2.frame y hy]
    unfold Act.apply
    exact set_ne (fun he => h.2.1 (he ▸ hy))

theorem SafeS.mono {F G : Nat → Prop} (hFG : ∀ x, G x → F x) : ∀ {ss : List SAct} {x : Nat} {m : Mem},
    SafeS F ss x m → SafeS G ss x m
  | [], _, _, _ => trivial
  | _ :: _, _, _, h => ⟨h.1, fun hg => h.2.1 (hFG _ hg), SafeS.mono hFG h.2.2⟩

theorem runConds_sym {m : Mem} : ∀ (cs : List SCnd) (n x : Nat), cs.length ≤ n →
    (∀ i (h : i < cs.length), SCndAt m (x + 20 * i) cs[i]) →
    (cs.length < n → m (x + 20 * cs.length + 12) = 0) → readyS m cs x →
    runConds m n x = some (condsS m cs x)
  | [], n, x, _, _, he, _ => by
    cases n with
    | zero => rfl
    | succ n =>
      have := he (by simp)
      simp only [List.length_nil, Nat.mul_zero, Nat.add_zero] at this
      simp [runConds, decodeCond, this, condsS]
  | c :: cs, n, x, hl, hi, he, hr => by
    cases n with
    | zero => simp at hl
    | succ n =>
      have h0 := hi 0 (by simp)
      simp only [Nat.mul_zero, Nat.add_zero, List.getElem_cons_zero] at h0
      simp only [runConds, decodeCond_sym h0 hr.1, condsS]
      cases hc : (c.res m x).holds m with
      | false => simp
      | true =>
        simp only [if_true, Bool.true_and]
        apply runConds_sym cs n (x + 20) (by simp at hl; omega) _ _ hr.2
        · intro i h
          have := hi (i + 1) (by simp; omega)
          simp only [List.getElem_cons_succ] at this
          rw [show x + 20 + 20 * i = x + 20 * (i + 1) by omega]
          exact this
        · intro h
          have := he (by simp; omega)
          simp only [List.length_cons] at this
          rw [show x + 20 + 20 * cs.length + 12 = x + 20 * (cs.length + 1) + 12 by omega]
          exact this

/-- The fixed dwords of a list of actions. -/
def actsFoot (ss : List SAct) (n x y : Nat) : Prop :=
  (∃ i, ∃ h : i < ss.length, ∃ j, j < 8 ∧ (ss[i].word j).isSome = true ∧ y = x + 32 * i + 4 * j) ∨
  (ss.length < n ∧ y = x + 32 * ss.length + 24)

theorem runActs_sym : ∀ (ss : List SAct) (n x : Nat) (m : Mem), ss.length ≤ n →
    (∀ i (h : i < ss.length), SActAt m (x + 32 * i) ss[i]) →
    (ss.length < n → m (x + 32 * ss.length + 24) = 0) →
    SafeS (actsFoot ss n x) ss x m →
    runActs n m x = some (runS ss x m)
  | [], n, x, m, _, _, he, _ => by
    cases n with
    | zero => rfl
    | succ n =>
      have := he (by simp)
      simp only [List.length_nil, Nat.mul_zero, Nat.add_zero] at this
      simp [runActs, decodeAct, this, runS]
  | s :: ss, n, x, m, hl, hi, he, hs => by
    cases n with
    | zero => simp at hl
    | succ n =>
      have h0 := hi 0 (by simp)
      simp only [Nat.mul_zero, Nat.add_zero, List.getElem_cons_zero] at h0
      simp only [runActs, decodeAct_sym h0 hs.1, runS]
      simp only [List.length_cons] at hl he
      have hfr : ∀ y, actsFoot (s :: ss) (n + 1) x y → ((s.res m x).apply m) y = m y := by
        intro y h1
        unfold Act.apply
        exact set_ne (fun he => hs.2.1 (he ▸ h1))
      have hsub : ∀ y, actsFoot ss n (x + 32) y → actsFoot (s :: ss) (n + 1) x y := by
        rintro y (⟨i, hi', j, hj, hw, rfl⟩ | ⟨h1, rfl⟩)
        · exact Or.inl ⟨i + 1, by simp; omega, j, hj, by simpa using hw, by omega⟩
        · exact Or.inr ⟨by simp; omega, by simp only [List.length_cons]; omega⟩
      apply runActs_sym ss n (x + 32) _ (by omega)
      · intro i h
        have := hi (i + 1) (by simp; omega)
        simp only [List.getElem_cons_succ] at this
        refine ⟨this.1, fun j hj w hw => ?_⟩
        rw [hfr _ (hsub _ (Or.inl ⟨i, h, j, hj, by rw [hw]; rfl, rfl⟩)),
          show x + 32 + 32 * i + 4 * j = x + 32 * (i + 1) + 4 * j by omega]
        exact this.2 j hj w hw
      · intro h
        rw [hfr _ (hsub _ (Or.inr ⟨h, rfl⟩)),
          show x + 32 + 32 * ss.length + 24 = x + 32 * (ss.length + 1) + 24 by omega]
        exact he (by omega)
      · exact hs.2.2.mono hsub

/-- The effect of the trigger on memory. -/
def SBlk.exec (b : SBlk) (m : Mem) : Mem :=
  if condsS m b.T.conds (b.t + 8) then runS b.T.acts (b.t + 328) m else m

structure SBlk.Safe (F : Nat → Prop) (b : SBlk) (m : Mem) : Prop where
  ready : readyS m b.T.conds (b.t + 8)
  acts : condsS m b.T.conds (b.t + 8) = true → SafeS F b.T.acts (b.t + 328) m

theorem SBlk.Safe.frame {F : Nat → Prop} {b : SBlk} {m : Mem} (h : b.Safe F m) (x : Nat) (hx : F x) :
    b.exec m x = m x := by
  unfold SBlk.exec
  split
  · exact (h.acts ‹_›).frame x hx
  · rfl

/-- **Executing a trigger with holes.** -/
theorem step_sym {m : Mem} {b : SBlk} (h : SBlkAt m b) (ho : b.once = false) (hs : b.Safe b.foot m) :
    step ⟨m, b.t⟩ = some ⟨b.exec m, (b.exec m (b.t + 4)).toNat⟩ := by
  have hf := h.flags ho
  have hfr := hs.frame (b.t + 2376) (by unfold SBlk.foot; simp [ho])
  unfold step
  have g3 : (4 : W).getLsbD 3 = false := by decide
  have g0 : (4 : W).getLsbD 0 = false := by decide
  simp only [hf, g3, g0, Bool.false_eq_true, if_false]
  rw [runConds_sym b.T.conds 16 (b.t + 8) h.cl h.cond h.cend hs.ready]
  unfold SBlk.exec at hfr ⊢
  cases hc : condsS m b.T.conds (b.t + 8) with
  | false => simp
  | true =>
    simp only [hc, if_true] at hfr
    simp only [Nat.sub_zero, Nat.mul_zero, Nat.add_zero, if_true]
    rw [runActs_sym b.T.acts 64 (b.t + 328) m h.al h.act h.aend
      ((hs.acts hc).mono (by
        rintro x (⟨i, hi, j, hj, hw, rfl⟩ | ⟨h1, rfl⟩)
        · exact Or.inr (Or.inr (Or.inl ⟨i, hi, j, hj, hw, rfl⟩))
        · exact Or.inr (Or.inr (Or.inr (Or.inl ⟨h1, rfl⟩)))))]
    simp only
    rw [hfr, hf, show flagsDone 4 = (4 : W) by decide]
    have : (runS b.T.acts (b.t + 328) m).set (b.t + 2376) 4 = runS b.T.acts (b.t + 328) m := by
      have := set_self (runS b.T.acts (b.t + 328) m) (b.t + 2376)
      rw [hfr, hf] at this
      exact this
    rw [this]

/-- A trigger that is not preserved: it runs when its flag dword is 0 and its conditions hold, and
then its flag dword becomes 8. -/
theorem step_once {m : Mem} {b : SBlk} (h : SBlkAt m b) (hf : m (b.t + 2376) = 0)
    (hs : b.Safe (fun x => b.foot x ∨ x = b.t + 2376) m) :
    step ⟨m, b.t⟩ =
      some (if condsS m b.T.conds (b.t + 8) then
        ⟨(b.exec m).set (b.t + 2376) 8, (b.exec m (b.t + 4)).toNat⟩
        else ⟨m, (m (b.t + 4)).toNat⟩) := by
  have hfr := hs.frame (b.t + 2376) (Or.inr rfl)
  unfold step
  have g3 : (0 : W).getLsbD 3 = false := by decide
  have g0 : (0 : W).getLsbD 0 = false := by decide
  simp only [hf, g3, g0, Bool.false_eq_true, if_false]
  rw [runConds_sym b.T.conds 16 (b.t + 8) h.cl h.cond h.cend hs.ready]
  unfold SBlk.exec at hfr ⊢
  cases hc : condsS m b.T.conds (b.t + 8) with
  | false => simp
  | true =>
    simp only [hc, if_true] at hfr
    simp only [Nat.sub_zero, Nat.mul_zero, Nat.add_zero, if_true]
    rw [runActs_sym b.T.acts 64 (b.t + 328) m h.al h.act h.aend
      ((hs.acts hc).mono (by
        rintro x (⟨i, hi, j, hj, hw, rfl⟩ | ⟨h1, rfl⟩)
        · exact Or.inl (Or.inr (Or.inr (Or.inl ⟨i, hi, j, hj, hw, rfl⟩)))
        · exact Or.inl (Or.inr (Or.inr (Or.inr (Or.inl ⟨h1, rfl⟩))))))]
    simp only
    rw [hfr, hf, show flagsDone 0 = (8 : W) by decide, set_ne (by omega)]

/-- A disabled trigger does nothing. -/
theorem step_disabled {m : Mem} {t : Nat} (hf : m (t + 2376) = 8) :
    step ⟨m, t⟩ = some ⟨m, (m (t + 4)).toNat⟩ := by
  unfold step
  have g3 : (8 : W).getLsbD 3 = true := by decide
  simp only [hf, g3, if_true]

end Eud.SC
