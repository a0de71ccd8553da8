import Verif.Lib.SwitchAct
/-
C62, C63: `f_playerexist` and `EUDLoopPlayer` (eudlib/utilf/pexist.py).
-/

namespace Eud.SC

/-- Spec: the list of triggers of the player `p` is there: the pointer to its end is not that of an empty list. -/
def PlayerThere (m : Mem) (p : W) : Prop := p.toNat < 8 ∧ m (0x51A280 + 12 * p.toNat + 8) ≠ ~~~ (BitVec.ofNat 32 (0x51A280 + 12 * p.toNat + 4))

instance (m : Mem) (p : W) : Decidable (PlayerThere m p) := by unfold PlayerThere; exact inferInstance

/-- pexist.py:33-39: the trigger of the case `p`. -/
def pexCase (ret p : Nat) : Stmt := .trig [cMem (0x51A280 + p * 12 + 8) .exactly (~~~ (BitVec.ofNat 32 (0x51A280 + p * 12 + 4)))] [aMem ret .set 0]

/-- pexist.py:41-42 `ret << 0`. -/
def pexDef (ret : Nat) : Stmt := .asg [⟨ret, .set, .const 0⟩]

/-- pexist.py:28-43: the switch on the dword `v`.  The action `ret.SetNumber(1)` is in the first trigger of the jump table, so it does not run for players above 7. -/
def PexRel (L : Layout) (v ret : Nat) (s s' : Mem) : Prop :=
  if (s v).toNat < 8 then Exec L (pexCase ret (s v).toNat) (runPA [aMem ret .set 1] s) .nrm s' else Exec L (pexDef ret) s .nrm s'

theorem range_lookup {β : Type} {k : Nat} (hk : k ≤ 2 ^ 32) (f : Nat → β) (v : W) : ((List.range k).map fun i => (BitVec.ofNat 32 i, f i)).lookup v = if v.toNat < k then some (f v.toNat) else none := by
  have hv := v.isLt
  have gen : ∀ (m a : Nat), a + m ≤ 2 ^ 32 → ((List.range' a m).map fun i => (BitVec.ofNat 32 i, f i)).lookup v = if a ≤ v.toNat ∧ v.toNat < a + m then some (f v.toNat) else none := by
    intro m
    induction m with
    | zero => intro a _; rw [if_neg (by omega)]; rfl
    | succ m ih =>
      intro a h
      rw [List.range'_succ, List.map_cons, List.lookup_cons]
      have e : (v == BitVec.ofNat 32 a) = decide (v.toNat = a) := by
        rw [Bool.eq_iff_iff, beq_iff_eq, decide_eq_true_iff, ← BitVec.toNat_inj, BitVec.toNat_ofNat, Nat.mod_eq_of_lt (by omega)]
      simp only [e]
      by_cases ha : v.toNat = a
      · simp only [ha, decide_true]
        rw [if_pos (by omega)]
      · simp only [ha, decide_false]
        rw [ih (a + 1) (by omega)]
        by_cases hh : a + 1 ≤ v.toNat ∧ v.toNat < a + 1 + m
        · rw [if_pos hh, if_pos (by omega)]
        · rw [if_neg hh, if_neg (by omega)]
  have := gen k 0 (by omega)
  rw [List.range_eq_range', this]
  by_cases h : v.toNat < k
  · rw [if_pos (by omega), if_pos h]
  · rw [if_neg (by omega), if_neg h]

/-- The labels of the switch and their triggers. -/
def pexCases (c : Nat → Nat) : List (W × Nat) := (List.range 8).map fun i => (BitVec.ofNat 32 i, c i)

theorem pex_keyAnd (c : Nat → Nat) : keyAnd (pexCases c) = 0 := by simp [keyAnd, pexCases, List.range_succ]
theorem pex_keyOr (c : Nat → Nat) : keyOr (pexCases c) = 7 := by simp [keyOr, pexCases, List.range_succ]
theorem pex_inv (c : Nat → Nat) : invMask (pexCases c) 0xFFFFFFFF = 0xFFFFFFF8 := by
  rw [invMask, pex_keyAnd, pex_keyOr]
  rfl

theorem low3 (w : W) : w &&& 0xFFFFFFF8 = 0 ↔ w.toNat < 8 := by
  constructor
  · intro h
    have h2 : w &&& 7 = w := by
      have : w = (w &&& 0xFFFFFFF8) ||| (w &&& 7) := by
        rw [← BitVec.and_or_distrib_left, show (0xFFFFFFF8 ||| 7 : W) = 0xFFFFFFFF by decide, and_full]
      rw [h] at this
      rw [show (0 : W) ||| (w &&& 7) = w &&& 7 by simp] at this
      exact this.symm
    have h3 := congrArg BitVec.toNat h2
    rw [BitVec.toNat_and] at h3
    have : w.toNat &&& (7 : W).toNat ≤ 7 := Nat.and_le_right
    omega
  · intro h
    apply BitVec.eq_of_toNat_eq
    rw [BitVec.toNat_and]
    generalize w.toNat = n at h
    have : ∀ n < 8, n &&& (0xFFFFFFF8 : W).toNat = (0 : W).toNat := by decide
    exact this n h

/-- The code: the jump table, the triggers of the cases and of the default. -/
theorem pex_code {L : Layout} (hw : L.Wf) {v ret d e x : Nat} {c : Nat → Nat} (hv : L.cell v) (hr : L.cell ret) (hne : v ≠ ret) (hj : JumpCodeA L v 0xFFFFFFFF [aMem ret .set 1] (pexCases c) d e)
    (hc : ∀ p < 8, ∃ r b k, Code L r b k (pexCase ret p) (c p) x) (hd : ∃ r b k, Code L r b k (pexDef ret) d x) {r b k : Nat} : Code L r b k (.prim (PexRel L v ret)) e x := by
  refine .prim ?_
  intro s s' h
  have h1 := C26_jump_acts hw hv (by simp [pexCases, List.range_succ]) (fun c _ => and_full c.1) hj (s := s) (actsOk_mem hr trivial) (by simp only [runPA_cons, runPA_nil, aMem_run]; exact set_ne hne)
  rw [pex_keyAnd, pex_inv, and_full, caseOf, pexCases, range_lookup (by decide)] at h1
  simp only [low3] at h1
  unfold PexRel at h
  by_cases h8 : (s v).toNat < 8
  · rw [if_pos h8] at h
    rw [if_pos h8, if_pos h8, Option.getD_some] at h1
    obtain ⟨r', b', k', g⟩ := hc _ h8
    exact h1.trans (C25_structured hw h g)
  · rw [if_neg h8] at h
    rw [if_neg h8, if_neg h8, Option.getD_none] at h1
    obtain ⟨r', b', k', g⟩ := hd
    exact h1.trans (C25_structured hw h g)

/-- The dwords that are read. -/
def pexAt : List Nat := (List.range 8).map fun p => 0x51A280 + 12 * p + 8

theorem pexAt_mem {p : Nat} (h : p < 8) : 0x51A280 + 12 * p + 8 ∈ pexAt := List.mem_map.2 ⟨p, List.mem_range.2 h, rfl⟩

theorem there_congr {s s' : Mem} (h : ∀ x ∈ pexAt, s' x = s x) (p : W) : PlayerThere s' p ↔ PlayerThere s p := by
  unfold PlayerThere
  by_cases hp : p.toNat < 8
  · rw [h _ (pexAt_mem hp)]
  · simp [hp]

theorem pex_does {L : Layout} {v ret : Nat} (hr : L.cell ret) (hp : ∀ x ∈ pexAt, L.cell x ∧ x ≠ ret) (s : Mem) :
    Does L (.prim (PexRel L v ret)) s fun s' => s' ret = (if PlayerThere s (s v) then 1 else 0) ∧ Only [ret] s s' := by
  by_cases h8 : (s v).toNat < 8
  · obtain ⟨h1, h2⟩ := hp _ (pexAt_mem h8)
    have key : Does L (pexCase ret (s v).toNat) (s.set ret 1) fun s' => s' ret = (if PlayerThere s (s v) then 1 else 0) ∧ Only [ret] s s' := by
      rw [Nat.mul_comm 12] at h1 h2
      have hh : holdsAll (s.set ret 1) [cMem (0x51A280 + (s v).toNat * 12 + 8) .exactly (~~~ (BitVec.ofNat 32 (0x51A280 + (s v).toNat * 12 + 4)))] = decide (¬ PlayerThere s (s v)) := by
        simp only [holdsAll_cons, holdsAll_nil, Bool.and_true, cMem_holds, compare, set_ne h2, PlayerThere, Nat.mul_comm 12, h8, true_and, ne_eq, Decidable.not_not]
      refine Does.trig (by simp only [List.mem_singleton, forall_eq]; exact cMem_ok h1 _ _ _) (fun h => ⟨actsOk_mem hr trivial, ?_⟩) (fun h => ?_)
      · rw [hh, decide_eq_true_eq] at h
        simp only [runPA_cons, runPA_nil, aMem_run, arith]
        exact ⟨by rw [set_eq, if_neg h], ((Only.refl _ _).set (by simp) _).set (by simp) _⟩
      · rw [hh, decide_eq_false_iff_not, Decidable.not_not] at h
        exact ⟨by rw [set_eq, if_pos h], (Only.refl _ _).set (by simp) _⟩
    obtain ⟨s', g1, g2⟩ := key
    refine Does.prim (s' := s') ?_ g2
    unfold PexRel
    rw [if_pos h8]
    simp only [runPA_cons, runPA_nil, aMem_run, arith]
    exact g1
  · have key : Does L (pexDef ret) s fun s' => s' ret = (if PlayerThere s (s v) then 1 else 0) ∧ Only [ret] s s' := by
      refine Does.asg (by simpa using hr) (by simp) ?_
      simp only [runAsg_cons, runAsg_nil, arith, Src.valM]
      exact ⟨by rw [set_eq, if_neg fun h => h8 h.1], (Only.refl _ _).set (by simp) _⟩
    obtain ⟨s', g1, g2⟩ := key
    refine Does.prim (s' := s') ?_ g2
    unfold PexRel
    rw [if_neg h8]
    exact g1

/-- **C62 (`f_playerexist`).** The result is 1 if the argument is one of the eight players and the player has triggers, and 0 otherwise, for every 32-bit argument. -/
theorem C62_exist {L : Layout} (hw : L.Wf) {v fr fs fe np o back : Nat} {src : Src} (hO : CallOk L np [(fr, o)] [(v, src)] [fr + 348]) (hF : FuncCode L fs fe np [fr] (.prim (PexRel L v (fr + 348)))) (hb : back < 2 ^ 32)
    (hr : L.cell (fr + 348)) (hp : ∀ x ∈ pexAt, L.cell x ∧ x ∉ [np, fr + 344, v, fr + 348]) (s : Mem) :
    Does L (.prim (CallRel L fe np back (.prim (PexRel L v (fr + 348))) [(fr, o)] [(v, src)])) s fun s' => s' o = (if PlayerThere s (src.valM s) then 1 else 0) ∧ Only (callOnly np [(fr, o)] [(v, src)] [fr + 348]) s s' := by
  refine Does.mono (C31_does hw hO hF hb (Q := fun s2 => s2 (fr + 348) = if PlayerThere s (src.valM s) then 1 else 0) ?_) ?_
  · intro s1 e1 e2
    refine Wp.mono (pex_does hr (fun x hx => ⟨(hp x hx).1, fun e => (hp x hx).2 (by simp [e])⟩) s1).wp ?_
    rintro q s2 ⟨rfl, g1, g2⟩
    have ev : s1 v = src.valM s := e1 (v, src) (by simp)
    have et := there_congr (fun x hx => e2 x fun h => (hp x hx).2 (by simp only [List.map_cons, List.map_nil, List.cons_append, List.nil_append, List.mem_cons, List.not_mem_nil, or_false] at h ⊢; rcases h with h | h | h <;> simp [h])) (src.valM s)
    refine ⟨Or.inl rfl, ?_, g2⟩
    simp only [g1, ev, et]
  · rintro s' ⟨⟨s2, g1, g2, -⟩, g3⟩
    exact ⟨(g2 (fr, o) (by simp)).trans g1, g3⟩

/-! ## `EUDLoopPlayer` -/

/-- pexist.py:105-107: `EUDContinueIf(v == i)` for the players between the first and the last one that are not wanted. -/
def skipThem (v : Nat) (body : Stmt) : List Nat → Stmt
  | [] => body
  | i :: l => .seq (.ite .skip [cMem (v + 348) .exactly (BitVec.ofNat 32 i)] .cont .skip) (skipThem v body l)

/-- pexist.py:101-113: the loop over the players `pl`, the first of which is `a` and the last `z`.  `call` is the call of `f_playerexist`, whose result is the dword `t`. -/
def loopPlayers (call : Stmt) (v t a z : Nat) (pl : List Nat) (body : Stmt) : Stmt :=
  .seq (.asg [⟨v + 348, .set, .const (BitVec.ofNat 32 a)⟩])
    (.loop false .skip [cMem (v + 348) .atMost (BitVec.ofNat 32 z)]
      (skipThem v (.seq call (.seq (.ite .skip [cMem t .atLeast 1] .skip .cont) body)) ((List.range' a (z - a)).filter fun i => !pl.contains i))
      (.asg [⟨v + 348, .add, .const 1⟩]))

theorem skipThem_wp {L : Layout} {v : Nat} (hv : L.cell (v + 348)) {body : Stmt} {Q : Out → Mem → Prop} {s : Mem} {p : Nat} (hs : s (v + 348) = BitVec.ofNat 32 p) (hp : p < 2 ^ 32) :
    ∀ {l : List Nat}, (∀ i ∈ l, i < 2 ^ 32) → (p ∈ l → Q .cont s) → (p ∉ l → Wp L body s Q) → Wp L (skipThem v body l) s Q
  | [], _, _, h => h (by simp)
  | i :: l, hl, hc, h => by
    have e : holdsAll s [cMem (v + 348) .exactly (BitVec.ofNat 32 i)] = decide (p = i) := by
      have hi := hl i (by simp)
      simp only [holdsAll_cons, holdsAll_nil, Bool.and_true, cMem_holds, compare, hs]
      rw [decide_eq_decide, ← BitVec.toNat_inj, BitVec.toNat_ofNat, BitVec.toNat_ofNat, Nat.mod_eq_of_lt hp, Nat.mod_eq_of_lt hi]
    refine Wp.seq (Wp.ite0 (by simp only [List.mem_singleton, forall_eq]; exact cMem_ok hv _ _ _) (fun hh => Wp.cont ?_) (fun hh => ⟨_, _, .skip _, ?_⟩))
    · rw [e, decide_eq_true_eq] at hh
      rw [if_neg (by simp)]
      exact hc (by simp [hh])
    · rw [e, decide_eq_false_iff_not] at hh
      exact Eq.mpr (if_pos rfl) (skipThem_wp hv hs hp (fun i hi => hl i (by simp [hi])) (fun h' => hc (by simp [h'])) (fun h' => h (by simp [hh, h'])))

/-- **C62 (`EUDLoopPlayer`).** The players are taken in order: for a wanted player that is in the game at that moment the body runs with the player in the variable, for every other player nothing happens. -/
theorem C62_loop {L : Layout} {call body : Stmt} {v t a z : Nat} {pl scr : List Nat} (hv : L.cell (v + 348)) (ht : L.cell t) (haz : a ≤ z) (hz8 : z < 8) (hz : z ∈ pl)
    (hcall : ∀ s, Does L call s fun s' => s' t = (if PlayerThere s (s (v + 348)) then 1 else 0) ∧ Only scr s s') (hvs : v + 348 ∉ scr) (hps : ∀ x ∈ pexAt, x ∉ scr)
    {I : Nat → Mem → Prop} (hI : ∀ p s s', Only ((v + 348) :: scr) s s' → I p s → I p s') {Q : Out → Mem → Prop}
    (hb : ∀ p s, a ≤ p → p ≤ z → p ∈ pl → PlayerThere s (BitVec.ofNat 32 p) → I p s → s (v + 348) = BitVec.ofNat 32 p → Wp L body s fun o s2 => match o with
      | .brk => Q .nrm s2
      | .ret => Q .ret s2
      | _ => I (p + 1) s2 ∧ s2 (v + 348) = BitVec.ofNat 32 p)
    (hd : ∀ p s, a ≤ p → p ≤ z → (p ∉ pl ∨ ¬ PlayerThere s (BitVec.ofNat 32 p)) → I p s → I (p + 1) s) (hQ : ∀ s, I (z + 1) s → Q .nrm s) {s : Mem} (h0 : I a s) :
    Wp L (loopPlayers call v t a z pl body) s Q := by
  have one : ∀ (s : Mem) (w : W), Only ((v + 348) :: scr) s (s.set (v + 348) w) := fun s w => (Only.refl _ _).set (by simp) _
  refine Wp.seqN (Does.asg (by simpa using hv) (by simp) ?_)
  simp only [runAsg_cons, runAsg_nil, arith, Src.valM]
  refine Wp.loop (fun n s => ∃ p, n + p = z + 1 ∧ a ≤ p ∧ s (v + 348) = BitVec.ofNat 32 p ∧ I p s) ?_ (n := z + 1 - a) ⟨a, by omega, Nat.le_refl _, set_eq .., hI _ _ _ (one _ _) h0⟩
  rintro n s ⟨p, hn, hap, hs, hi⟩
  have hst : holdsAll s [cMem (v + 348) .atMost (BitVec.ofNat 32 z)] = decide (p ≤ z) := by
    simp only [holdsAll_cons, holdsAll_nil, Bool.and_true, cMem_holds, compare, hs]
    rw [decide_eq_decide, BitVec.le_def, BitVec.toNat_ofNat, BitVec.toNat_ofNat, Nat.mod_eq_of_lt (by omega), Nat.mod_eq_of_lt (by omega)]
  refine Does.skip ⟨by simp only [List.mem_singleton, forall_eq]; exact cMem_ok hv _ _ _, fun h => ?_, fun h => ?_⟩
  · rw [hst, decide_eq_false_iff_not] at h
    have : p = z + 1 := by omega
    subst this
    exact hQ _ hi
  · rw [hst, Bool.not_false, decide_eq_true_eq] at h
    have step : ∀ {s2 : Mem}, I (p + 1) s2 → s2 (v + 348) = BitVec.ofNat 32 p → Does L (.asg [⟨v + 348, .add, .const 1⟩]) s2 fun s3 => ∃ m, m < n ∧ ∃ p, m + p = z + 1 ∧ a ≤ p ∧ s3 (v + 348) = BitVec.ofNat 32 p ∧ I p s3 := by
      intro s2 i2 e2
      refine Does.asg (by simpa using hv) (by simp) ?_
      simp only [runAsg_cons, runAsg_nil, arith, Src.valM, e2]
      exact ⟨n - 1, by omega, p + 1, by omega, by omega, by rw [set_eq, BitVec.ofNat_add]; rfl, hI _ _ _ (one _ _) i2⟩
    have hin : p ∈ ((List.range' a (z - a)).filter fun i => !pl.contains i) ↔ p ∉ pl := by
      simp only [List.mem_filter, List.mem_range'_1, Bool.not_eq_true', List.contains_eq_mem, decide_eq_false_iff_not]
      constructor
      · exact fun h => h.2
      · intro h'
        have : p ≠ z := fun e => h' (e ▸ hz)
        exact ⟨by omega, h'⟩
    refine skipThem_wp hv hs (by omega) (fun i hi' => ?_) (fun hp => ?_) (fun hp => ?_)
    · simp only [List.mem_filter, List.mem_range'_1] at hi'
      omega
    · exact step (hd p s hap h (Or.inl (hin.1 hp)) hi) hs
    · have hpl : p ∈ pl := Decidable.not_not.1 fun h' => hp (hin.2 h')
      refine Wp.seqN (Does.mono (hcall s) ?_)
      rintro s1 ⟨t1, o1⟩
      have v1 : s1 (v + 348) = BitVec.ofNat 32 p := (o1 _ hvs).trans hs
      have et := there_congr (fun x hx => o1 x (hps x hx)) (BitVec.ofNat 32 p)
      have i1 := hI p s s1 (fun x hx => o1 x fun h' => hx (List.mem_cons_of_mem _ h')) hi
      have hh : holdsAll s1 [cMem t .atLeast 1] = decide (PlayerThere s1 (BitVec.ofNat 32 p)) := by
        simp only [holdsAll_cons, holdsAll_nil, Bool.and_true, cMem_holds, compare, t1, hs]
        rw [decide_eq_decide, et]
        by_cases hx : PlayerThere s (BitVec.ofNat 32 p) <;> simp [hx]
      refine Wp.seq (Wp.ite0 (by simp only [List.mem_singleton, forall_eq]; exact cMem_ok ht _ _ _) (fun h' => ⟨_, _, .skip _, ?_⟩) (fun h' => Wp.cont ?_))
      · rw [hh, decide_eq_true_eq] at h'
        refine Eq.mpr (if_pos rfl) (Wp.mono (hb p s1 hap h hpl h' i1 v1) ?_)
        intro o s2 h2
        cases o with
        | brk => exact h2
        | ret => exact h2
        | nrm => exact step h2.1 h2.2
        | cont => exact step h2.1 h2.2
      · rw [hh, decide_eq_false_iff_not] at h'
        rw [if_neg (by simp)]
        exact step (hd p s1 hap h (Or.inr h') i1) v1

/-! ## The choice of the players -/

/-- What `GetPlayerInfo` gives for a player (core/mapdata/playerinfo.py:13-68). -/
structure PInfo where
  typestr : String
  racestr : String
  force : Nat

/-- pexist.py:70-77 `encode_force` for integers; `none` is a failed assertion. -/
def encodeForce (f : Nat) : Option Nat :=
  let g := if 18 ≤ f ∧ f ≤ 21 then f - 18 else f
  if g ≤ 3 then some g else none

/-- `not x or y == x` for a string or `None`: both `None` and the empty string are false. -/
def strOk (x : Option String) (y : String) : Bool := x == none || x == some "" || x == some y

/-- pexist.py:80-87: the filters for one player; `not force` is true for `None` and for 0. -/
def pickOne (i : PInfo) (ptype : Option String) (force : Option Nat) (race : Option String) : Option Bool :=
  if strOk ptype i.typestr then
    match force with
    | none | some 0 => some (strOk race i.racestr)
    | some f => match encodeForce f with
      | none => none
      | some g => if i.force = g then some (strOk race i.racestr) else some false
  else some false

/-- pexist.py:79-101: the players, in order; `none` is an exception.  The list is not empty, and `start`, `end` are its least and greatest elements. -/
def pick (info : Nat → PInfo) (ptype : Option String) (force : Option Nat) (race : Option String) : Option (List Nat) :=
  match (List.range 8).mapM fun p => (pickOne (info p) ptype force race).map fun b => (p, b) with
  | none => none
  | some l => if (l.filter (·.2)).map (·.1) = [] then none else some ((l.filter (·.2)).map (·.1))

/-- Spec: a filter is met. -/
def Meets (want : Option String) (has : String) : Prop := ∀ w, want = some w → w ≠ "" → has = w

/-- Spec: the player is asked for.  Forces are numbered from 0 or from 18. -/
def Asked (info : Nat → PInfo) (ptype : Option String) (force : Option Nat) (race : Option String) (p : Nat) : Prop :=
  p < 8 ∧ Meets ptype (info p).typestr ∧ (∀ f, force = some f → (info p).force = f ∨ (info p).force + 18 = f) ∧ Meets race (info p).racestr

theorem strOk_iff (x : Option String) (y : String) : strOk x y = true ↔ Meets x y := by
  unfold strOk Meets
  cases x with
  | none => simp
  | some w =>
    by_cases h : w = ""
    · simp [h]
    · simp only [Option.some.injEq, h, Option.some_beq_some, beq_iff_eq, Bool.or_eq_true, forall_eq', ne_eq, not_false_eq_true, forall_const, false_or, reduceCtorEq, beq_eq_false_iff_ne]
      exact eq_comm

theorem mapM_pairs {g : Nat → Option Bool} : ∀ {l : List Nat} {r : List (Nat × Bool)}, (l.mapM fun p => (g p).map fun b => (p, b)) = some r → ∀ p, p ∈ (r.filter (·.2)).map (·.1) ↔ p ∈ l ∧ g p = some true
  | [], r, h, p => by
    simp only [List.mapM_nil, Option.pure_def, Option.some.injEq] at h
    subst h
    simp
  | a :: l, r, h, p => by
    rw [List.mapM_cons] at h
    cases ha : g a with
    | none => simp [ha] at h
    | some b =>
      cases hl : (l.mapM fun p => (g p).map fun b => (p, b)) with
      | none => simp [ha, hl] at h
      | some r' =>
        simp only [ha, hl, Option.map_some, Option.bind_eq_bind, Option.bind_some, Option.pure_def, Option.some.injEq] at h
        subst h
        have ih := mapM_pairs hl p
        cases b
        · rw [List.filter_cons_of_neg (by simp), ih, List.mem_cons]
          refine ⟨fun h => ⟨Or.inr h.1, h.2⟩, fun h => ⟨h.1.resolve_left fun e => ?_, h.2⟩⟩
          rw [e, ha] at h
          simp at h
        · rw [List.filter_cons_of_pos (by simp), List.map_cons, List.mem_cons, ih, List.mem_cons]
          refine ⟨fun h => h.elim (fun e => ⟨Or.inl e, by rw [e, ha]⟩) fun h => ⟨Or.inr h.1, h.2⟩, fun h => h.1.elim Or.inl fun h' => Or.inr ⟨h', h.2⟩⟩

/-- **C63 (which players).** For every map, the players of the loop are exactly those asked for, provided the force is not given as 0 and the map has forces 0 to 3; the loop runs from the least to the greatest. -/
theorem C63_pick_partial {info : Nat → PInfo} {ptype race : Option String} {force : Option Nat} {pl : List Nat} (h0 : force ≠ some 0) (hf : ∀ p, (info p).force ≤ 3) (h : pick info ptype force race = some pl) :
    (∀ p, p ∈ pl ↔ Asked info ptype force race p) ∧ ∃ a z, pl.min? = some a ∧ pl.max? = some z ∧ a ≤ z ∧ z < 8 ∧ z ∈ pl ∧ ∀ p ∈ pl, a ≤ p ∧ p ≤ z := by
  unfold pick at h
  split at h
  · cases h
  · rename_i r hr
    split at h
    · cases h
    · rename_i hne
      cases h
      have hm := mapM_pairs hr
      have key : ∀ p, p ∈ (r.filter (·.2)).map (·.1) ↔ Asked info ptype force race p := by
        intro p
        rw [hm p, List.mem_range, Asked, ← strOk_iff, ← strOk_iff]
        refine and_congr_right fun _ => ?_
        unfold pickOne
        cases strOk ptype (info p).typestr with
        | false => simp
        | true =>
          simp only [if_true, true_and]
          match force, h0 with
          | none, _ => simp
          | some 0, h0 => exact absurd rfl h0
          | some (f + 1), _ =>
            have := hf p
            simp only [Option.some.injEq, forall_eq', encodeForce]
            by_cases h18 : 18 ≤ f + 1 ∧ f + 1 ≤ 21
            · rw [if_pos h18, if_pos (by omega)]
              by_cases e : (info p).force = f + 1 - 18
              · simp only [e, if_true, Option.some.injEq]
                exact ⟨fun h => ⟨Or.inr (by omega), h⟩, fun h => h.2⟩
              · simp only [e, if_false, Option.some.injEq]
                exact ⟨fun h => absurd h (by simp), fun h => absurd h.1 (by omega)⟩
            · rw [if_neg h18]
              by_cases h3 : f + 1 ≤ 3
              · rw [if_pos h3]
                by_cases e : (info p).force = f + 1
                · simp only [e, if_true, Option.some.injEq]
                  exact ⟨fun h => ⟨Or.inl trivial, h⟩, fun h => h.2⟩
                · simp only [e, if_false, Option.some.injEq]
                  exact ⟨fun h => absurd h (by simp), fun h => h.1.elim False.elim fun h => by omega⟩
              · rw [if_neg h3]
                exact ⟨fun h => absurd h (by simp), fun h => absurd h.1 (by omega)⟩
      refine ⟨key, ?_⟩
      obtain ⟨a, ha⟩ := Option.isSome_iff_exists.1 (List.isSome_min?_of_ne_nil hne)
      obtain ⟨z, hz⟩ := Option.isSome_iff_exists.1 (List.isSome_max?_of_ne_nil hne)
      have za := (List.max?_eq_some_iff.1 hz)
      have aa := (List.min?_eq_some_iff.1 ha)
      exact ⟨a, z, ha, hz, aa.2 z za.1, ((key z).1 za.1).1, za.1, fun p hp => ⟨aa.2 p hp, za.2 p hp⟩⟩

theorem mapM_some {α β : Type} {g : α → Option β} : ∀ {l : List α}, (∀ a ∈ l, (g a).isSome = true) → ∃ r, l.mapM g = some r
  | [], _ => ⟨[], rfl⟩
  | a :: l, h => by
    obtain ⟨b, hb⟩ := Option.isSome_iff_exists.1 (h a (by simp))
    obtain ⟨r, hr⟩ := mapM_some (l := l) fun x hx => h x (by simp [hx])
    exact ⟨b :: r, by simp [List.mapM_cons, hb, hr]⟩

/-- **C63 (exception).** There is no exception if some player is asked for, and there is one if none is. -/
theorem C63_raise_partial {info : Nat → PInfo} {ptype race : Option String} {force : Option Nat} (h0 : force ≠ some 0) (hf : ∀ p, (info p).force ≤ 3) :
    (pick info ptype force race).isSome = true ↔ ∃ p, Asked info ptype force race p := by
  constructor
  · intro h
    obtain ⟨pl, h⟩ := Option.isSome_iff_exists.1 h
    obtain ⟨k, a, z, -, -, -, -, hz, -⟩ := C63_pick_partial h0 hf h
    exact ⟨z, (k z).1 hz⟩
  · rintro ⟨p, hp⟩
    have he : ∀ i : PInfo, (pickOne i ptype force race).isSome = true := by
      intro i
      unfold pickOne
      split
      · split
        · rfl
        · rfl
        · rename_i f _
          have := hp.2.2.1 f rfl
          have := hf p
          have : ∃ g, encodeForce f = some g := by
            unfold encodeForce
            by_cases h18 : 18 ≤ f ∧ f ≤ 21
            · exact ⟨f - 18, by simp only [if_pos h18]; rw [if_pos (by omega)]⟩
            · exact ⟨f, by simp only [if_neg h18]; rw [if_pos (by omega)]⟩
          obtain ⟨g, hg⟩ := this
          rw [hg]
          simp only
          split <;> rfl
      · rfl
    obtain ⟨r, hr⟩ := mapM_some (l := List.range 8) (g := fun p => (pickOne (info p) ptype force race).map fun b => (p, b)) fun p _ => by simp [he]
    have hm := mapM_pairs hr p
    unfold pick
    rw [hr]
    simp only
    split
    · rename_i hn
      rw [hn] at hm
      have hk := hm.2 ⟨List.mem_range.2 hp.1, ?_⟩
      · cases hk
      · unfold pickOne
        rw [(strOk_iff _ _).2 hp.2.1, if_pos rfl]
        match force, h0 with
        | none, _ => simpa using (strOk_iff _ _).2 hp.2.2.2
        | some 0, h0 => exact absurd rfl h0
        | some (f + 1), _ =>
          have h1 := hp.2.2.1 (f + 1) rfl
          have h2 := hf p
          have : encodeForce (f + 1) = some (info p).force := by
            unfold encodeForce
            by_cases h18 : 18 ≤ f + 1 ∧ f + 1 ≤ 21
            · simp only [if_pos h18]
              rw [if_pos (by omega)]
              exact congrArg some (by omega)
            · simp only [if_neg h18]
              rw [if_pos (by omega)]
              exact congrArg some (by omega)
          simp only [this, if_true]
          exact congrArg some ((strOk_iff _ _).2 hp.2.2.2)
    · rfl

/-- The hypothesis on the force is needed: with `force = 0`, which `encode_force` would take for the first force, the players of all forces are chosen. -/
theorem C63_force0 {info : Nat → PInfo} {ptype race : Option String} : pick info ptype (some 0) race = pick info ptype none race := rfl

/-- Force 1 of a map: written as 18 it gives the players 0 and 2, written as 0 also those of the other force. -/
example : let info := fun p => (⟨if p < 4 then "Human" else "Inactive", "User selectable", p % 2⟩ : PInfo)
    pick info (some "Human") (some 18) none = some [0, 2] ∧ pick info (some "Human") (some 0) none = some [0, 1, 2, 3] := by decide +kernel

end Eud.SC
