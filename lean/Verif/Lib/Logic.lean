import Verif.Lib.Compare
/-
C48: booleans packed in dwords (core/variable/eudlv.py).  C16: EUDNot where the condition cannot be negated in place, EUDAnd, EUDOr
(ctrlstru/logic.py).  C27: short-circuit conditions (ctrlstru/shortcircuit.py).
-/

namespace Eud.SC

/-! ## Booleans -/

/-- An EUDLightBool: address of the dword and number of the bit (eudlv.py:53-55, `_mask` is `1 << bit`). -/
structure LB where
  a : Nat
  b : Nat
deriving DecidableEq

/-- Spec: the boolean stored there. -/
def LB.get (v : LB) (s : Mem) : Bool := (s v.a).getLsbD v.b

/-- eudlv.py:60-73, as the actions and conditions of triggers -/
def LB.set (v : LB) : PA := aMemX v.a .set (pow2 v.b) (pow2 v.b)
def LB.clear (v : LB) : PA := aMemX v.a .set 0 (pow2 v.b)
def LB.toggle (v : LB) : PA := aMemX v.a .add (pow2 v.b) (pow2 v.b)
def LB.isSet (v : LB) : PC := cMemX v.a .atLeast 1 (pow2 v.b)
def LB.isCleared (v : LB) : PC := cMemX v.a .exactly 0 (pow2 v.b)

/-- Spec: setting the boolean to `w`. -/
def LB.put (v : LB) (w : Bool) (s s' : Mem) : Prop :=
  v.get s' = w ∧ (∀ u : LB, u ≠ v → u.b < 32 → u.get s' = u.get s) ∧ Only [v.a] s s'

theorem getLsbD_pow2 {b : Nat} (hb : b < 32) (i : Nat) : (pow2 b).getLsbD i = decide (i = b) := by
  simp only [pow2, BitVec.getLsbD_twoPow]
  by_cases h : i = b
  · subst h; simp [hb]
  · simp only [h, decide_false, Bool.and_eq_false_imp, decide_eq_true_eq, decide_eq_false_iff_not]
    omega

theorem LB.put_set {v : LB} {s : Mem} {w : W} {x : Bool} (hx : w.getLsbD v.b = x) (ho : ∀ i, i < 32 → i ≠ v.b → w.getLsbD i = (s v.a).getLsbD i) :
    v.put x s (s.set v.a w) := by
  refine ⟨by rw [LB.get, set_eq, hx], ?_, Only.set (Only.refl _ _) (by simp) _⟩
  intro u hu h32
  unfold LB.get
  by_cases ha : u.a = v.a
  · rw [ha, set_eq]
    refine ho _ h32 fun e => hu ?_
    cases u; cases v; simp_all
  · rw [set_ne ha]

variable {L : Layout}

theorem LB.set_put {v : LB} (hb : v.b < 32) (s : Mem) : v.put true s (v.set.run s) := by
  rw [LB.set, aMemX_run]
  refine LB.put_set ?_ ?_
  · rw [modify_bit_set _ _ _ _ hb, getLsbD_pow2 hb]; simp
  · intro i hi hne
    rw [modify_bit_set _ _ _ _ hi, getLsbD_pow2 hb, if_neg (by simpa using hne)]

theorem LB.clear_put {v : LB} (hb : v.b < 32) (s : Mem) : v.put false s (v.clear.run s) := by
  rw [LB.clear, aMemX_run]
  refine LB.put_set ?_ ?_
  · rw [modify_bit_set _ _ _ _ hb, getLsbD_pow2 hb]; simp
  · intro i hi hne
    rw [modify_bit_set _ _ _ _ hi, getLsbD_pow2 hb, if_neg (by simpa using hne)]

theorem LB.toggle_put {v : LB} (hb : v.b < 32) (s : Mem) : v.put (!v.get s) s (v.toggle.run s) := by
  rw [LB.toggle, aMemX_run, add_alt (by
    intro i hi h
    rw [getLsbD_pow2 hb] at h ⊢
    simp only [decide_eq_true_eq, decide_eq_false_iff_not] at h ⊢
    omega), BitVec.and_self]
  refine LB.put_set ?_ ?_
  · rw [BitVec.getLsbD_xor, getLsbD_pow2 hb]; simp [LB.get]
  · intro i hi hne
    rw [BitVec.getLsbD_xor, getLsbD_pow2 hb]; simp [hne]

theorem LB.isSet_holds {v : LB} (hb : v.b < 32) (s : Mem) : v.isSet.holds s = v.get s := by
  rw [LB.isSet, cMemX_holds, pow2_bit _ hb, LB.get]

theorem LB.isCleared_holds {v : LB} (hb : v.b < 32) (s : Mem) : v.isCleared.holds s = !v.get s := by
  rw [LB.isCleared, cMemX_holds, LB.get, ← pow2_bit _ hb]
  simp only [compare, BitVec.le_def]
  rw [← decide_not, decide_eq_decide]
  constructor
  · intro h; rw [h]; decide
  · intro h
    apply BitVec.eq_of_toNat_eq
    have : ¬ 1 ≤ (s v.a &&& pow2 v.b).toNat := h
    show _ = 0
    omega

/-- **C48 (operations).** Each operation changes its own boolean only, and the conditions read it. -/
theorem C48_ops {v : LB} (hb : v.b < 32) (hc : L.cell v.a) (s : Mem) :
    Does L (.trig [] [v.set]) s (v.put true s) ∧ Does L (.trig [] [v.clear]) s (v.put false s) ∧ Does L (.trig [] [v.toggle]) s (v.put (!v.get s) s) ∧
    CondIs L .skip [v.isSet] v.get [] ∧ CondIs L .skip [v.isCleared] (fun s => !v.get s) [] := by
  refine ⟨Does.acts (actsOk_memX hc trivial) ?_, Does.acts (actsOk_memX hc trivial) ?_, Does.acts (actsOk_memX hc trivial) ?_, ?_, ?_⟩
  · exact LB.set_put hb s
  · exact LB.clear_put hb s
  · exact LB.toggle_put hb s
  · intro s
    exact Does.skip ⟨by simp; exact cMemX_ok hc _ _ _ _, by simp only [holdsAll_cons, holdsAll_nil, Bool.and_true, LB.isSet_holds hb], Only.refl _ _⟩
  · intro s
    exact Does.skip ⟨by simp; exact cMemX_ok hc _ _ _ _, by simp only [holdsAll_cons, holdsAll_nil, Bool.and_true, LB.isCleared_holds hb], Only.refl _ _⟩

/-! ### Allocation -/

/-- The class variables of EUDLightBool (eudlv.py:32-35); dwords are numbered in the order of creation, `n` of them exist, each with its initial value. -/
structure LBAlloc where
  tlv : Nat
  tbit : Nat
  flv : Nat
  fbit : Nat
  init : List W

/-- eudlv.py:32-35 -/
def LBAlloc.start : LBAlloc := ⟨0, 0, 1, 0, [0xFFFFFFFF, 0]⟩

/-- eudlv.py:37-56 `EUDLightBool(initval)` -/
def LBAlloc.new (s : LBAlloc) : Bool → LBAlloc × LB
  | true =>
    let s := if s.tbit ≥ 32 then { s with tlv := s.init.length, tbit := 0, init := s.init ++ [0xFFFFFFFF] } else s
    ({ s with tbit := s.tbit + 1 }, ⟨s.tlv, s.tbit⟩)
  | false =>
    let s := if s.fbit ≥ 32 then { s with flv := s.init.length, fbit := 0, init := s.init ++ [0] } else s
    ({ s with fbit := s.fbit + 1 }, ⟨s.flv, s.fbit⟩)

/-- Booleans made one after the other. -/
def LBAlloc.run : LBAlloc → List Bool → LBAlloc × List LB
  | s, [] => (s, [])
  | s, b :: bs => let (s1, v) := s.new b; let (s2, vs) := s1.run bs; (s2, v :: vs)

structure LBAlloc.Inv (s : LBAlloc) (old : List LB) : Prop where
  tlt : s.tlv < s.init.length
  flt : s.flv < s.init.length
  ne : s.tlv ≠ s.flv
  ti : s.init[s.tlv]? = some 0xFFFFFFFF
  fi : s.init[s.flv]? = some 0
  old : ∀ v ∈ old, v.a < s.init.length ∧ (v.a = s.tlv → v.b < s.tbit) ∧ (v.a = s.flv → v.b < s.fbit)

theorem LBAlloc.Inv.new {s : LBAlloc} {old : List LB} (h : s.Inv old) (b : Bool) :
    (s.new b).1.Inv ((s.new b).2 :: old) ∧ (s.new b).2 ∉ old ∧ (s.new b).2.b < 32 ∧
    ((s.new b).1.init[(s.new b).2.a]?.map fun w => w.getLsbD (s.new b).2.b) = some b ∧ s.init <+: (s.new b).1.init := by
  obtain ⟨h1, h2, h3, h4, h5, h6⟩ := h
  have hones : ∀ i, i < 32 → (0xFFFFFFFF : W).getLsbD i = true := by decide
  cases b with
  | true =>
    simp only [LBAlloc.new]
    split
    · refine ⟨⟨by simp, by simp; omega, by simp; omega, by simp, ?_, ?_⟩, ?_, by simp, ?_, by simp⟩
      · simp only; rw [List.getElem?_append_left h2, h5]
      · intro v hv
        simp only [List.mem_cons] at hv
        simp only [List.length_append, List.length_singleton]
        rcases hv with rfl | hv
        · simp only; omega
        · have := h6 v hv; omega
      · intro hh; have := h6 _ hh; simp only at this; omega
      · simp
    · refine ⟨⟨h1, h2, h3, h4, h5, ?_⟩, ?_, by omega, ?_, by simp⟩
      · intro v hv
        simp only [List.mem_cons] at hv
        rcases hv with rfl | hv
        · simp only; omega
        · have := h6 v hv; simp only; omega
      · intro hh; have := (h6 _ hh).2.1 rfl; simp only at this; omega
      · simp only [h4, Option.map_some]
        rw [hones _ (by omega)]
  | false =>
    simp only [LBAlloc.new]
    split
    · refine ⟨⟨by simp; omega, by simp, by simp; omega, ?_, by simp, ?_⟩, ?_, by simp, ?_, by simp⟩
      · simp only; rw [List.getElem?_append_left h1, h4]
      · intro v hv
        simp only [List.mem_cons] at hv
        simp only [List.length_append, List.length_singleton]
        rcases hv with rfl | hv
        · simp only; omega
        · have := h6 v hv; omega
      · intro hh; have := h6 _ hh; simp only at this; omega
      · simp
    · refine ⟨⟨h1, h2, h3, h4, h5, ?_⟩, ?_, by omega, ?_, by simp⟩
      · intro v hv
        simp only [List.mem_cons] at hv
        rcases hv with rfl | hv
        · simp only; omega
        · have := h6 v hv; simp only; omega
      · intro hh; have := (h6 _ hh).2.2 rfl; simp only at this; omega
      · simp [h5]

theorem LBAlloc.run_spec : ∀ (bs : List Bool) (s : LBAlloc) (old : List LB), s.Inv old →
    (s.run bs).2.length = bs.length ∧ (s.run bs).2.Nodup ∧ (∀ v ∈ (s.run bs).2, v ∉ old ∧ v.b < 32) ∧ s.init <+: (s.run bs).1.init ∧
    ∀ (i : Nat) (v : LB) (b : Bool), (s.run bs).2[i]? = some v → bs[i]? = some b → ((s.run bs).1.init[v.a]?.map fun w => w.getLsbD v.b) = some b
  | [], s, old, _ => by simp [LBAlloc.run]
  | b :: bs, s, old, h => by
    obtain ⟨g1, g2, g3, g4, g5⟩ := h.new b
    obtain ⟨r1, r2, r3, r4, r5⟩ := LBAlloc.run_spec bs (s.new b).1 _ g1
    simp only [LBAlloc.run]
    refine ⟨by simp [r1], ?_, ?_, g5.trans r4, ?_⟩
    · rw [List.nodup_cons]
      exact ⟨fun hh => (r3 _ hh).1 (by simp), r2⟩
    · intro v hv
      simp only [List.mem_cons] at hv
      rcases hv with rfl | hv
      · exact ⟨g2, g3⟩
      · exact ⟨fun hh => (r3 v hv).1 (by simp [hh]), (r3 v hv).2⟩
    · intro i v b' hv hb
      cases i with
      | zero =>
        simp only [List.getElem?_cons_zero, Option.some.injEq] at hv hb
        subst hv hb
        have ht := r4
        obtain ⟨l, hl⟩ := ht
        rw [← hl]
        cases hq : (s.new b).1.init[(s.new b).2.a]? with
        | none => rw [hq] at g4; simp at g4
        | some w =>
          have hlt : (s.new b).2.a < (s.new b).1.init.length := (List.getElem?_eq_some_iff.1 hq).1
          rw [List.getElem?_append_left hlt, g4]
      | succ i => exact r5 i v b' (by simpa using hv) (by simpa using hb)

/-- **C48 (independence).** However many booleans are made, with whatever initial values: they are different bits, and each one starts with its value. -/
theorem C48_alloc (bs : List Bool) : (LBAlloc.start.run bs).2.length = bs.length ∧ (LBAlloc.start.run bs).2.Nodup ∧
    (∀ v ∈ (LBAlloc.start.run bs).2, v.b < 32) ∧
    ∀ (i : Nat) (v : LB) (b : Bool), (LBAlloc.start.run bs).2[i]? = some v → bs[i]? = some b →
      ((LBAlloc.start.run bs).1.init[v.a]?.map fun w => w.getLsbD v.b) = some b := by
  obtain ⟨h1, h2, h3, -, h4⟩ := LBAlloc.run_spec bs LBAlloc.start [] ⟨by decide, by decide, by decide, by decide, by decide, by simp⟩
  exact ⟨h1, h2, fun v hv => (h3 v hv).2, h4⟩

/-- 70 booleans take four dwords -/
example : ((LBAlloc.start.run (List.replicate 35 true ++ List.replicate 35 false)).2[34]?, (LBAlloc.start.run (List.replicate 35 true ++ List.replicate 35 false)).2[69]?) =
    (some ⟨2, 2⟩, some ⟨3, 2⟩) := by decide +kernel

/-! ## EUDNot, EUDAnd, EUDOr -/

/-- logic.py:79-84, the way out of EUDNot -/
def eudNot (v : LB) (pre : Stmt) (cs : List PC) : Stmt := .seq (.trig [] [v.set]) (.ite pre cs (.trig [] [v.clear]) .skip)

/-- **C16 (EUDNot of a condition that cannot be negated in place).** The boolean is true exactly when the condition was false; here the condition
must not depend on the boolean, which is new. -/
theorem C16_eudnot {v : LB} (hb : v.b < 32) (hc : L.cell v.a) {pre : Stmt} {cs : List PC} {P : Mem → Bool} {scr : List Nat} (h : CondIs L pre cs P scr)
    (hv : v.a ∉ scr) (hP : ∀ s s', v.put true s s' → P s' = P s) :
    CondIs L (eudNot v pre cs) [v.isSet] (fun s => !P s) (v.a :: scr) := by
  intro s
  have h1 := LB.set_put hb s
  refine Does.seq (Does.acts (actsOk_memX hc trivial) (Does.ite ((h _).mono ?_)))
  rintro s1 ⟨g1, g2, g3⟩
  have e1 : P (runPA [v.set] s) = P s := hP _ _ h1
  rw [e1] at g2
  have hget : v.get s1 = true := by
    rw [LB.get, g3 _ hv]; exact h1.1
  have ho : Only (v.a :: scr) s s1 := (h1.2.2.mono (by simp)).trans (g3.mono fun x hx => by simp [hx])
  refine ⟨g1, fun hh => ?_, fun hh => ?_⟩
  · have h2 := LB.clear_put hb s1
    refine Does.acts (actsOk_memX hc trivial) ⟨by simp; exact cMemX_ok hc _ _ _ _, ?_, ?_⟩
    · simp only [holdsAll_cons, holdsAll_nil, Bool.and_true, LB.isSet_holds hb, runPA_cons, runPA_nil, h2.1]
      rw [← g2, hh]; rfl
    · exact ho.trans (h2.2.2.mono (by simp))
  · refine Does.skip ⟨by simp; exact cMemX_ok hc _ _ _ _, ?_, ho⟩
    simp only [holdsAll_cons, holdsAll_nil, Bool.and_true, LB.isSet_holds hb, hget]
    rw [← g2, hh]; rfl

/-- logic.py:64-69: EUDNot of a variable -/
def eudNotVar (v x : Nat) : Stmt := .seq (.asg [⟨v + 348, .set, .const 0⟩]) (.trig [cMem (x + 348) .exactly 0] [aMem (v + 348) .set 1])

theorem C16_eudnot_var (hw : L.Wf) {v x : Nat} (hv : v ∈ L.P.vars) (hx : x ∈ L.P.vars) (hne : v ≠ x) (s : Mem) :
    Does L (eudNotVar v x) s fun s' => s' (v + 348) = (if s (x + 348) = 0 then 1 else 0) ∧ Only [v + 348] s s' := by
  have hc := cell_val hw hv
  have h1 : x + 348 ≠ v + 348 := by omega
  refine Does.seq (Does.asg (by simpa using hc) (by simp) (Does.trig (by simp; exact cMem_ok (cell_val hw hx) _ _ _) ?_ ?_)) <;>
    simp only [holdsAll_cons, holdsAll_nil, Bool.and_true, cMem_holds, compare, runAsg_cons, runAsg_nil, arith, Src.valM, set_ne h1, decide_eq_true_eq, decide_eq_false_iff_not,
      runPA_cons, runPA_nil, aMem_run] <;> intro h
  · exact ⟨actsOk_mem hc trivial, by rw [set_eq, if_pos h], Only.set (Only.set (Only.refl _ _) (by simp) _) (by simp) _⟩
  · exact ⟨by rw [set_eq, if_neg h], Only.set (Only.refl _ _) (by simp) _⟩

/-- logic.py:13-30 `EUDOr`, `neg` false, and logic.py:33-55 `EUDAnd`, `neg` true: the boolean is set to `!neg` at the first part that is true (resp. false), and
to `neg` if there is none.  A part is the code that completes its conditions, and its conditions. -/
def eudAndOr (v : LB) (neg : Bool) : List (Stmt × List PC) → Stmt
  | [] => .trig [] [if neg then v.set else v.clear]
  | (pre, cs) :: ps =>
    if neg then .ite pre cs (eudAndOr v neg ps) (.trig [] [v.clear]) else .ite pre cs (.trig [] [v.set]) (eudAndOr v neg ps)

/-- **C27 (EUDAnd, EUDOr).** -/
theorem C27_andor {v : LB} (hb : v.b < 32) (hc : L.cell v.a) (neg : Bool) (scr : List Nat) (hscr : v.a ∉ scr) : ∀ (ps : List ((Stmt × List PC) × (Mem → Bool))),
    (∀ p ∈ ps, CondIs L p.1.1 p.1.2 p.2 scr ∧ ∀ s s', Only scr s s' → p.2 s' = p.2 s) →
    CondIs L (eudAndOr v neg (ps.map Prod.fst)) [v.isSet] (fun s => if neg then ps.all (fun p => p.2 s) else ps.any fun p => p.2 s) (v.a :: scr)
  | [], _, s => by
    cases neg with
    | true =>
      have h1 := LB.set_put hb s
      refine Does.acts (actsOk_memX hc trivial) ⟨by simp; exact cMemX_ok hc _ _ _ _, ?_, h1.2.2.mono (by simp)⟩
      simp only [holdsAll_cons, holdsAll_nil, Bool.and_true, LB.isSet_holds hb, runPA_cons, runPA_nil, if_true]
      simpa using h1.1
    | false =>
      have h1 := LB.clear_put hb s
      refine Does.acts (actsOk_memX hc trivial) ⟨by simp; exact cMemX_ok hc _ _ _ _, ?_, h1.2.2.mono (by simp)⟩
      simp only [holdsAll_cons, holdsAll_nil, Bool.and_true, LB.isSet_holds hb, runPA_cons, runPA_nil]
      simpa using h1.1
  | ((pre, cs), P) :: ps, h, s => by
    have ih := C27_andor hb hc neg scr hscr ps (fun p hp => h p (by simp [hp]))
    obtain ⟨hp, hP⟩ := h ((pre, cs), P) (by simp)
    simp only at hp hP
    have hind : ∀ s', Only scr s s' → (ps.all (fun p => p.2 s') = ps.all fun p => p.2 s) ∧ (ps.any (fun p => p.2 s') = ps.any fun p => p.2 s) := by
      intro s' hs
      have : ∀ p ∈ ps, p.2 s' = p.2 s := fun p hp => (h p (by simp [hp])).2 s s' hs
      constructor
      · rw [Bool.eq_iff_iff]; simp only [List.all_eq_true]
        exact ⟨fun g p hp => this p hp ▸ g p hp, fun g p hp => (this p hp).symm ▸ g p hp⟩
      · rw [Bool.eq_iff_iff]; simp only [List.any_eq_true]
        exact ⟨fun ⟨p, hp, g⟩ => ⟨p, hp, this p hp ▸ g⟩, fun ⟨p, hp, g⟩ => ⟨p, hp, (this p hp).symm ▸ g⟩⟩
    have hset : ∀ (x : Bool) s1, Only scr s s1 → Does L (.trig [] [if x then v.set else v.clear]) s1 fun s' =>
        (∀ c ∈ [v.isSet], c.Ok L s') ∧ holdsAll s' [v.isSet] = x ∧ Only (v.a :: scr) s s' := by
      intro x s1 ho
      cases x with
      | true =>
        have h1 := LB.set_put hb s1
        refine Does.acts (actsOk_memX hc trivial) ⟨by simp; exact cMemX_ok hc _ _ _ _, ?_, (ho.mono fun x hx => by simp [hx]).trans (h1.2.2.mono (by simp))⟩
        simp only [holdsAll_cons, holdsAll_nil, Bool.and_true, LB.isSet_holds hb, runPA_cons, runPA_nil, if_true]
        exact h1.1
      | false =>
        have h1 := LB.clear_put hb s1
        refine Does.acts (actsOk_memX hc trivial) ⟨by simp; exact cMemX_ok hc _ _ _ _, ?_, (ho.mono fun x hx => by simp [hx]).trans (h1.2.2.mono (by simp))⟩
        simp only [holdsAll_cons, holdsAll_nil, Bool.and_true, LB.isSet_holds hb, runPA_cons, runPA_nil]
        exact h1.1
    cases neg with
    | true =>
      simp only [List.map_cons, eudAndOr, if_true, List.all_cons]
      refine Does.ite ((hp s).mono ?_)
      rintro s1 ⟨g1, g2, g3⟩
      refine ⟨g1, fun hh => (ih s1).mono ?_, fun hh => (hset false s1 g3).mono ?_⟩
      · rintro s2 ⟨k1, k2, k3⟩
        simp only [if_true] at k2
        exact ⟨k1, by rw [k2, (hind s1 g3).1, ← g2, hh, Bool.true_and], (g3.mono fun x hx => by simp [hx]).trans k3⟩
      · rintro s2 ⟨k1, k2, k3⟩
        exact ⟨k1, by rw [k2, ← g2, hh, Bool.false_and], k3⟩
    | false =>
      simp only [List.map_cons, eudAndOr, Bool.false_eq_true, if_false, List.any_cons]
      refine Does.ite ((hp s).mono ?_)
      rintro s1 ⟨g1, g2, g3⟩
      refine ⟨g1, fun hh => (hset true s1 g3).mono ?_, fun hh => (ih s1).mono ?_⟩
      · rintro s2 ⟨k1, k2, k3⟩
        exact ⟨k1, by rw [k2, ← g2, hh, Bool.true_or], k3⟩
      · rintro s2 ⟨k1, k2, k3⟩
        simp only [Bool.false_eq_true, if_false] at k2
        exact ⟨k1, by rw [k2, (hind s1 g3).2, ← g2, hh, Bool.false_or], (g3.mono fun x hx => by simp [hx]).trans k3⟩

/-! ## Short-circuit conditions -/

/-- A part of a chain: the code of the part together with the code that completes its condition, the condition, whether it is taken negated
(`neg=True`), whether the code of the part is empty and the condition constant (`nt_list == [side_effect]` and `is_const_cond`), and the negated
condition if `is_nagatable_cond` (then that is what `negate_cond` makes of it). -/
structure Part where
  pre : Stmt
  cs : List PC
  neg : Bool
  const : Bool := false
  negc : Option (List PC) := none

/-- Spec: evaluating one part in `s` gives `b` and leaves `s'`. -/
def Part.Ev (L : Layout) (p : Part) (s : Mem) (b : Bool) (s' : Mem) : Prop :=
  Exec L p.pre s .nrm s' ∧ (∀ c ∈ p.cs, c.Ok L s') ∧ (holdsAll s' p.cs ^^ p.neg) = b

/-- Spec: the parts are evaluated from left to right until one gives `stop`; the result is then `stop`, and otherwise `!stop`.  `stop` is true
for a disjunction and false for a conjunction. -/
inductive Short (L : Layout) (stop : Bool) : List Part → Mem → Bool → Mem → Prop
  | nil (s : Mem) : Short L stop [] s (!stop) s
  | stop {p : Part} {ps : List Part} {s s' : Mem} : p.Ev L s stop s' → Short L stop (p :: ps) s stop s'
  | next {p : Part} {ps : List Part} {s s1 s' : Mem} {b : Bool} : p.Ev L s (!stop) s1 → Short L stop ps s1 b s' → Short L stop (p :: ps) s b s'

/-- Where the result is put. -/
structure Flag where
  setS : Stmt
  clrS : Stmt
  get : Mem → Bool

/-- Writing and reading the flag; `same` is about the code and the conditions of the parts, to which it is unknown. -/
structure Flag.Good (f : Flag) (L : Layout) (ps : List Part) : Prop where
  set : ∀ s, Does L f.setS s fun s' => f.get s' = true
  clr : ∀ s, Does L f.clrS s fun s' => f.get s' = false
  same : ∀ p ∈ ps, ∀ s s', Exec L p.pre s .nrm s' → f.get s' = f.get s

theorem Flag.Good.tail {f : Flag} {p : Part} {ps : List Part} (h : f.Good L (p :: ps)) : f.Good L ps :=
  ⟨h.set, h.clr, fun q hq => h.same q (by simp [hq])⟩

/-- The jumps for parts already seen to need code; `hit` is the code at the shared target (`fb`, `tb`).
shortcircuit.py:55-59 and 67-99 with `stop` false, 119-122 with `stop` true. -/
def scChain (stop : Bool) (hit : Stmt) : List Part → Stmt
  | [] => .skip
  | p :: ps => if p.neg = stop then .ite p.pre p.cs (scChain stop hit ps) hit else .ite p.pre p.cs hit (scChain stop hit ps)

theorem scChain_spec {f : Flag} {stop : Bool} : ∀ {ps : List Part} {s s' : Mem} {b : Bool}, f.Good L ps → Short L stop ps s b s' → f.get s = (!stop) →
    (if b = stop then ∀ Q, Does L (if stop then f.setS else f.clrS) s' Q → Does L (scChain stop (if stop then f.setS else f.clrS) ps) s Q
     else Does L (scChain stop (if stop then f.setS else f.clrS) ps) s fun s2 => s2 = s' ∧ f.get s2 = !stop)
  | [], s, s', b, _, h, hg => by
    cases h
    rw [if_neg (by cases stop <;> simp)]
    exact Does.skip ⟨rfl, hg⟩
  | p :: ps, s, s', b, hf, h, hg => by
    cases h with
    | stop h =>
      obtain ⟨h1, h2, h3⟩ := h
      rw [if_pos rfl]
      intro Q hQ
      simp only [scChain]
      split
      · rename_i hn
        refine Does.ite ⟨_, h1, h2, fun hh => ?_, fun _ => hQ⟩
        rw [hh, hn] at h3
        cases stop <;> simp at h3
      · rename_i hn
        refine Does.ite ⟨_, h1, h2, fun _ => hQ, fun hh => ?_⟩
        rw [hh] at h3
        exact absurd (by simpa using h3) hn
    | next h hr =>
      rename_i s1
      obtain ⟨h1, h2, h3⟩ := h
      have ih := scChain_spec hf.tail hr ((hf.same p (by simp) _ _ h1).trans hg)
      have hgo : ∀ Q, Does L (scChain stop (if stop then f.setS else f.clrS) ps) s1 Q →
          Does L (scChain stop (if stop then f.setS else f.clrS) (p :: ps)) s Q := by
        intro Q hQ
        simp only [scChain]
        split
        · rename_i hn
          refine Does.ite ⟨_, h1, h2, fun _ => hQ, fun hh => ?_⟩
          rw [hh, hn] at h3
          cases stop <;> simp at h3
        · rename_i hn
          refine Does.ite ⟨_, h1, h2, fun hh => ?_, fun _ => hQ⟩
          rw [hh] at h3
          cases hp : p.neg <;> cases hq : stop <;> simp_all
      split at ih
      · rename_i hb
        rw [if_pos hb]
        exact fun Q hQ => hgo Q (ih Q hQ)
      · rename_i hb
        rw [if_neg hb]
        exact hgo _ ih

/-- shortcircuit.py:103-123 `EUDSCOr` -/
def scOr (f : Flag) (ps : List Part) : Stmt := .seq f.clrS (scChain true f.setS ps)

/-- **C27 (disjunction).** If from the state after clearing the new flag the parts evaluate, one after the other up to the first true one, to `b`, then that
is what the flag says at the end. -/
theorem C27_or {f : Flag} {ps : List Part} (hf : f.Good L ps) {s : Mem} {b : Bool} {s' : Mem → Mem}
    (he : ∀ s0, Exec L f.clrS s .nrm s0 → Short L true ps s0 b (s' s0)) :
    Does L (scOr f ps) s fun s2 => f.get s2 = b ∧ ∃ s0, Exec L f.clrS s .nrm s0 ∧
      if b then Exec L f.setS (s' s0) .nrm s2 else s2 = s' s0 := by
  obtain ⟨s0, h1, h2⟩ := hf.clr s
  have hs := he s0 h1
  have h := scChain_spec hf hs (by simpa using h2)
  refine Does.seq ⟨s0, h1, ?_⟩
  cases b with
  | true =>
    simp only [if_true] at h ⊢
    obtain ⟨s2, g1, g2⟩ := hf.set (s' s0)
    exact h _ ⟨s2, g1, g2, s0, h1, g1⟩
  | false =>
    simp only [Bool.false_eq_true, if_false, if_true, Bool.not_true] at h ⊢
    exact h.mono fun s2 hs2 => ⟨hs2.2, s0, h1, hs2.1⟩

/-- shortcircuit.py:25-41, 46-53, 60-99 `EUDSCAnd`: conditions collected so far, then the parts still to come; the result is a list of conditions, or
code and the flag. -/
def scAnd (f : Flag) : List PC → List Part → List PC ⊕ Stmt
  | acc, [] => .inl acc
  | acc, p :: ps =>
    if p.const then
      if p.neg then
        match p.negc with
        | some c => scAnd f (acc ++ c) ps
        | none => .inr (scAndCode acc (p :: ps))
      else scAnd f (acc ++ p.cs) ps
    else .inr (scAndCode acc (p :: ps))
where
  /-- `patch`, the jump for the collected conditions, then the parts -/
  scAndCode (acc : List PC) (ps : List Part) : Stmt :=
    .seq f.setS (if acc = [] then scChain false f.clrS ps else .ite .skip acc (scChain false f.clrS ps) f.clrS)

/-- What is collected for a part, if anything. -/
def Part.coll (p : Part) : Option (List PC) := if p.const then (if p.neg then p.negc else some p.cs) else none

/-- Parts with a constant condition have no code; negating gives the opposite (C16). -/
structure Part.Const (p : Part) (L : Layout) (s : Mem) : Prop where
  pre : p.pre = .skip
  ok : ∀ q ∈ p.cs, q.Ok L s
  neg : ∀ c, p.negc = some c → (∀ q ∈ c, q.Ok L s) ∧ holdsAll s c = !holdsAll s p.cs

theorem holdsAll_append (s : Mem) (a b : List PC) : holdsAll s (a ++ b) = (holdsAll s a && holdsAll s b) := by simp [holdsAll]

/-- The first parts, as far as they are conditions only, are collected. -/
theorem scAnd_split {f : Flag} : ∀ {ps : List Part} {acc : List PC}, ∃ qs rs : List Part, ∃ cs : List (List PC), ps = qs ++ rs ∧ qs.map Part.coll = cs.map some ∧
    scAnd f acc ps = if rs = [] then .inl (acc ++ cs.flatten) else .inr (scAnd.scAndCode f (acc ++ cs.flatten) rs)
  | [], acc => ⟨[], [], [], rfl, rfl, by simp [scAnd]⟩
  | p :: ps, acc => by
    cases hc : p.coll with
    | none =>
      refine ⟨[], p :: ps, [], rfl, rfl, ?_⟩
      simp only [scAnd]
      unfold Part.coll at hc
      split at hc
      · rename_i h1
        rw [if_pos h1]
        split at hc
        · rename_i h2
          rw [if_pos h2, hc]; simp
        · simp at hc
      · rename_i h1
        rw [if_neg h1]; simp
    | some c =>
      obtain ⟨qs, rs, cs, h1, h2, h3⟩ := scAnd_split (f := f) (ps := ps) (acc := acc ++ c)
      refine ⟨p :: qs, rs, c :: cs, by simp [h1], by simp [h2, hc], ?_⟩
      simp only [List.flatten_cons, ← List.append_assoc]
      rw [← h3]
      simp only [scAnd]
      unfold Part.coll at hc
      split at hc
      · rename_i h4
        rw [if_pos h4]
        split at hc
        · rename_i h5
          rw [if_pos h5, hc]
        · rename_i h5
          rw [if_neg h5]
          simp only [Option.some.injEq] at hc
          rw [hc]
      · simp at hc

theorem Part.Const.coll {p : Part} {s : Mem} {c : List PC} (h : p.const = true → p.Const L s) (hc : p.coll = some c) :
    p.pre = .skip ∧ (∀ q ∈ c, q.Ok L s) ∧ holdsAll s c = (holdsAll s p.cs ^^ p.neg) := by
  have hconst : p.const = true := by
    unfold Part.coll at hc
    split at hc
    · assumption
    · simp at hc
  obtain ⟨k1, k2, k3⟩ := h hconst
  refine ⟨k1, ?_⟩
  unfold Part.coll at hc
  rw [if_pos hconst] at hc
  split at hc
  · rename_i hn
    have := k3 c hc
    rw [hn]; simpa using this
  · rename_i hn
    simp only [Option.some.injEq] at hc
    subst hc
    simp only [Bool.not_eq_true] at hn
    exact ⟨k2, by simp [hn]⟩

theorem coll_ok {s : Mem} : ∀ {qs : List Part} {cs : List (List PC)}, qs.map Part.coll = cs.map some →
    (∀ p ∈ qs, p.const = true → p.Const L s) → ∀ c ∈ cs.flatten, c.Ok L s
  | [], [], _, _ => by simp
  | p :: qs, c :: cs, hm, hk => by
    simp only [List.map_cons, List.cons.injEq] at hm
    have := coll_ok hm.2 fun p hp => hk p (by simp [hp])
    intro q hq
    simp only [List.flatten_cons, List.mem_append] at hq
    rcases hq with hq | hq
    · exact (Part.Const.coll (hk p (by simp)) hm.1).2.1 q hq
    · exact this q hq

theorem short_coll {s : Mem} {rs : List Part} : ∀ {qs : List Part} {cs : List (List PC)} {b : Bool} {s' : Mem}, qs.map Part.coll = cs.map some →
    (∀ p ∈ qs, p.const = true → p.Const L s) → Short L false (qs ++ rs) s b s' →
    (holdsAll s cs.flatten = true ∧ Short L false rs s b s') ∨ (holdsAll s cs.flatten = false ∧ b = false ∧ s' = s)
  | [], [], b, s', hm, _, h => .inl ⟨rfl, h⟩
  | p :: qs, c :: cs, b, s', hm, hk, h => by
    simp only [List.map_cons, List.cons.injEq] at hm
    obtain ⟨k1, -, k3⟩ := Part.Const.coll (hk p (by simp)) hm.1
    simp only [List.flatten_cons, holdsAll_append]
    have hev : ∀ {v : Bool} {t : Mem}, p.Ev L s v t → t = s ∧ holdsAll s c = v := by
      rintro v t ⟨e1, -, e3⟩
      rw [k1] at e1
      cases e1
      exact ⟨rfl, k3.trans e3⟩
    cases h with
    | stop h =>
      obtain ⟨h1, h2⟩ := hev h
      exact .inr ⟨by simp [h2], rfl, h1⟩
    | next h hr =>
      obtain ⟨rfl, h2⟩ := hev h
      rw [h2]
      simpa using short_coll hm.2 (fun p hp => hk p (by simp [hp])) hr

/-- **C27 (conjunction).**  If the result is a list of conditions, it is true exactly when the parts, evaluated one after the other up to the first
false one, are all true, and evaluating them changes nothing.  If it is code and a flag: the flag says at the end what the parts evaluate to from the
state after setting the new flag. -/
theorem C27_and {f : Flag} {ps : List Part} (hf : f.Good L ps) {s : Mem} {b : Bool} :
    match scAnd f [] ps with
    | .inl cs => ∀ s', (∀ p ∈ ps, p.const = true → p.Const L s) → Short L false ps s b s' → s' = s ∧ (∀ c ∈ cs, c.Ok L s) ∧ holdsAll s cs = b
    | .inr st => ∀ s' : Mem → Mem, (∀ s0, Exec L f.setS s .nrm s0 → (∀ p ∈ ps, p.const = true → p.Const L s0) ∧ Short L false ps s0 b (s' s0)) →
      Does L st s fun s2 => f.get s2 = b ∧ ∃ s0, Exec L f.setS s .nrm s0 ∧ if b then s2 = s' s0 else Exec L f.clrS (s' s0) .nrm s2 := by
  obtain ⟨qs, rs, cs, h1, h2, h3⟩ := scAnd_split (f := f) (ps := ps) (acc := [])
  rw [h3, List.nil_append]
  by_cases hrs : rs = []
  · rw [if_pos hrs]
    intro s' hk h
    subst hrs h1
    rw [List.append_nil] at hk hf
    refine ⟨?_, coll_ok h2 hk, ?_⟩
    · rcases short_coll h2 hk h with ⟨-, g⟩ | ⟨-, -, g⟩
      · cases g; rfl
      · exact g
    · rcases short_coll h2 hk h with ⟨g, g'⟩ | ⟨g, g', -⟩
      · cases g'; simpa using g
      · rw [g, g']
  · rw [if_neg hrs]
    intro s' hs
    obtain ⟨s0, e1, e2⟩ := hf.set s
    obtain ⟨hk, he⟩ := hs s0 e1
    have hkq : ∀ p ∈ qs, p.const = true → p.Const L s0 := fun p hp => hk p (by simp [h1, hp])
    have hfr : f.Good L rs := ⟨hf.set, hf.clr, fun p hp => hf.same p (by simp [h1, hp])⟩
    rw [h1] at he
    refine Does.seq ⟨s0, e1, ?_⟩
    have hclr : Does L f.clrS s0 fun s2 => f.get s2 = false ∧ Exec L f.clrS s0 .nrm s2 := by
      obtain ⟨s2, g1, g2⟩ := hf.clr s0
      exact ⟨s2, g1, g2, g1⟩
    have hchain : Short L false rs s0 b (s' s0) →
        Does L (scChain false f.clrS rs) s0 fun s2 => f.get s2 = b ∧ ∃ s0, Exec L f.setS s .nrm s0 ∧ if b then s2 = s' s0 else Exec L f.clrS (s' s0) .nrm s2 := by
      intro hr
      have h := scChain_spec hfr hr (by simpa using e2)
      cases b with
      | true =>
        simp only [Bool.true_eq_false, if_false, Bool.not_false, Bool.false_eq_true] at h
        exact h.mono fun s2 g => ⟨g.2, s0, e1, by simpa using g.1⟩
      | false =>
        simp only [if_true, Bool.false_eq_true, if_false] at h
        obtain ⟨s2, g1, g2⟩ := hf.clr (s' s0)
        exact h _ ⟨s2, g1, g2, s0, e1, by simpa using g1⟩
    rcases short_coll h2 hkq he with ⟨g1, g2⟩ | ⟨g1, g2, g3⟩
    · split
      · exact hchain g2
      · exact Does.ite0 (coll_ok h2 hkq) (fun _ => hchain g2) (fun hh => by rw [g1] at hh; cases hh)
    · split
      · rename_i hn
        rw [hn] at g1; cases g1
      · refine Does.ite0 (coll_ok h2 hkq) (fun hh => by rw [g1] at hh; cases hh) fun _ => hclr.mono fun s2 g => ⟨by rw [g.1, g2], s0, e1, ?_⟩
        rw [g2, g3]; simpa using g.2

/-- The flag of a condition: shortcircuit.py:33-36, 106-110 -/
def LB.flag (v : LB) : Flag := ⟨.trig [] [v.set], .trig [] [v.clear], v.get⟩

/-- The flag outside of conditions: shortcircuit.py:38-41 -/
def varFlag (v : Nat) : Flag := ⟨.asg [⟨v + 348, .set, .const 1⟩], .trig [] [aMem (v + 348) .set 0], fun s => decide (1 ≤ s (v + 348))⟩

theorem LB.flag_good {v : LB} (hb : v.b < 32) (hc : L.cell v.a) {ps : List Part} (h : ∀ p ∈ ps, ∀ s s', Exec L p.pre s .nrm s' → s' v.a = s v.a) :
    v.flag.Good L ps :=
  ⟨fun s => Does.acts (actsOk_memX hc trivial) (LB.set_put hb s).1, fun s => Does.acts (actsOk_memX hc trivial) (LB.clear_put hb s).1,
    fun p hp s s' he => by show (s' v.a).getLsbD _ = (s v.a).getLsbD _; rw [h p hp s s' he]⟩

theorem varFlag_good (hw : L.Wf) {v : Nat} (hv : v ∈ L.P.vars) {ps : List Part} (h : ∀ p ∈ ps, ∀ s s', Exec L p.pre s .nrm s' → s' (v + 348) = s (v + 348)) :
    (varFlag v).Good L ps :=
  ⟨fun s => Does.asg (by simpa using cell_val hw hv) (by simp) (by simp [varFlag, runAsg_cons, runAsg_nil, set_eq, Src.valM, arith]),
    fun s => Does.acts (actsOk_mem (cell_val hw hv) trivial) (by simp only [varFlag, runPA_cons, runPA_nil, aMem_run, set_eq, arith]; decide),
    fun p hp s s' he => by show decide _ = decide _; rw [h p hp s s' he]⟩

end Eud.SC
