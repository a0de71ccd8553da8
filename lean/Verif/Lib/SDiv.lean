import Verif.Machine.Queue
import Verif.Machine.Call
import Verif.Lib.Ops
/-
C43: signed division (eudlib/mathf/div.py).
-/

namespace Eud.SC

/-! ## Arithmetic -/

/-- Magnitude of a word read as two's complement. -/
def mag (w : W) : W := if w < 0x80000000 then w else -w
def isNeg (w : W) : Bool := !decide (w < 0x80000000)

theorem mag_toInt (w : W) : w.toInt = if isNeg w then -((mag w).toNat : Int) else ((mag w).toNat : Int) := by
  have hw := w.isLt
  unfold isNeg mag
  by_cases h : w < (0x80000000 : W)
  · rw [if_pos h, decide_eq_true h]
    rw [BitVec.lt_def] at h
    simp only [BitVec.ofNat_eq_ofNat, BitVec.toNat_ofNat] at h
    rw [BitVec.toInt_eq_toNat_cond]
    rw [if_pos (by omega)]
    simp
  · rw [if_neg h, decide_eq_false h]
    rw [BitVec.lt_def] at h
    simp only [BitVec.ofNat_eq_ofNat, BitVec.toNat_ofNat] at h
    rw [BitVec.toInt_eq_toNat_cond, if_neg (by omega), BitVec.toNat_neg]
    simp only [Bool.not_false, if_true]
    omega

theorem mag_pos {w : W} (h : w ≠ 0) : 0 < (mag w).toNat := by
  have hw := w.isLt
  have h0 : w.toNat ≠ 0 := fun e => h (BitVec.eq_of_toNat_eq (by simpa using e))
  unfold mag
  split
  · omega
  · rw [BitVec.toNat_neg]; omega

theorem mag_zero {w : W} (h : mag w = 0) : w = 0 := by
  by_cases h0 : w = 0
  · exact h0
  · have := mag_pos h0
    rw [h] at this
    simp at this

/-- Division of magnitudes and signs, for the three ways of rounding. -/
theorem div_signs (x y : Nat) (hy : 0 < y) (na nb : Bool) :
    let A : Int := if na then -(x : Int) else x
    let B : Int := if nb then -(y : Int) else y
    (A.tdiv B = if na = nb then ((x / y : Nat) : Int) else -((x / y : Nat) : Int)) ∧
    (A.tmod B = if na then -((x % y : Nat) : Int) else ((x % y : Nat) : Int)) ∧
    (A.fdiv B = if na = nb then ((x / y : Nat) : Int) else if 1 ≤ x % y then -((x / y + 1 : Nat) : Int) else -((x / y : Nat) : Int)) ∧
    (A.fmod B = (if nb then -1 else 1) * if na = nb then ((x % y : Nat) : Int) else if 1 ≤ x % y then (y : Int) - (x % y : Nat) else 0) ∧
    (A / B = (if na = nb then 1 else -1) * if na ∧ 1 ≤ x % y then ((x / y + 1 : Nat) : Int) else ((x / y : Nat) : Int)) ∧
    (A % B = if na ∧ 1 ≤ x % y then (y : Int) - (x % y : Nat) else (x % y : Nat)) := by
  have h1 := Nat.div_add_mod x y
  have h2 := Nat.mod_lt x hy
  have h1' : (y : Int) * ((x / y : Nat) : Int) + ((x % y : Nat) : Int) = x := by exact_mod_cast h1
  generalize x / y = q at *
  generalize x % y = m at *
  have t : (x : Int).tdiv y = q ∧ (x : Int).tmod y = m := by
    rw [Int.tdiv_tmod_unique (by omega) (by omega)]
    omega
  have epp : (x : Int) / y = q ∧ (x : Int) % y = m := by
    rw [Int.ediv_emod_unique (by omega)]; omega
  have enp : (-x : Int) / y = (if 1 ≤ m then -((q + 1 : Nat) : Int) else -(q : Int)) ∧ (-x : Int) % y = (if 1 ≤ m then (y : Int) - m else m) := by
    rw [Int.ediv_emod_unique (by omega)]
    split
    · simp only [Int.natCast_add, Int.mul_neg, Int.mul_add]; omega
    · simp only [Int.mul_neg]; omega
  have fpp : (x : Int).fdiv y = q ∧ (x : Int).fmod y = m := by
    rw [Int.fdiv_fmod_unique (by omega)]; omega
  have fnp : (-x : Int).fdiv y = (if 1 ≤ m then -((q + 1 : Nat) : Int) else -(q : Int)) ∧ (-x : Int).fmod y = (if 1 ≤ m then (y : Int) - m else m) := by
    rw [Int.fdiv_fmod_unique (by omega)]
    split
    · simp only [Int.natCast_add, Int.mul_neg, Int.mul_add]; omega
    · simp only [Int.mul_neg]; omega
  have hnn : -(-(x : Int)) = x := Int.neg_neg _
  cases na <;> cases nb <;> simp only [Bool.false_eq_true, if_false, if_true, Bool.true_eq_false, false_and, true_and]
  · exact ⟨t.1, t.2, fpp.1, by rw [fpp.2]; omega, by rw [epp.1]; omega, epp.2⟩
  · refine ⟨by rw [Int.tdiv_neg, t.1], by rw [Int.tmod_neg, t.2], ?_, ?_, by rw [Int.ediv_neg, epp.1]; omega, by rw [Int.emod_neg, epp.2]⟩
    · have := Int.neg_fdiv_neg (-x : Int) y
      rw [hnn] at this; rw [this]; exact fnp.1
    · have := Int.neg_fmod_neg (-x : Int) y
      rw [hnn] at this; rw [this, fnp.2]; split <;> omega
  · refine ⟨by rw [Int.neg_tdiv, t.1], by rw [Int.neg_tmod, t.2], fnp.1, by rw [fnp.2]; split <;> omega, by rw [enp.1]; split <;> omega, by rw [enp.2]⟩
  · refine ⟨by rw [Int.neg_tdiv, Int.tdiv_neg, t.1]; omega, by rw [Int.neg_tmod, Int.tmod_neg, t.2], ?_, ?_, ?_, ?_⟩
    · rw [Int.neg_fdiv_neg]; exact fpp.1
    · rw [Int.neg_fmod_neg, fpp.2]; omega
    · rw [Int.ediv_neg, enp.1]; split <;> omega
    · rw [Int.emod_neg, enp.2]

/-! ## The code -/

/-- core/variable/vbase.py:133-149 `ineg(action=True)` of the value at `a` -/
def inegA (a : Nat) : List PA := [aMemX a .add 0xFFFFFFFF 0x55555555, aMemX a .add 0xFFFFFFFF 0xAAAAAAAA, aMem a .add 1]

/-- div.py:50-51, 122-123, 227-229: `_signflag << 0`, or 2 for a negative constant divisor. -/
def sdInit (sg : Nat) (w : W) : Stmt := .trig [] [aMem sg .set w]
/-- div.py:48-54, 57-63: note the sign of the value at `a` as `w` in the flag and replace it by its magnitude. -/
def sdAbs (a sg : Nat) (w : W) : Stmt := .trig [cMem a .atLeast 0x80000000] (aMem sg .add w :: inegA a)
/-- div.py:71: exactly one of the operands is negative. -/
def sdDiff (sg : Nat) : List PC := [cMem sg .atLeast 1, cMem sg .atMost 2]

/-- div.py:49-83 with a variable divisor; `dv` is the call of `f_div`. -/
def sdHead (a b sg : Nat) (dv : Stmt) : Stmt := .seqs [sdInit sg 0, sdAbs a sg 1, sdAbs b sg 2, dv]
/-- div.py:49-83 with the constant divisor `k`. -/
def sdHeadC (a sg : Nat) (k : Int) (dv : Stmt) : Stmt := .seqs [sdInit sg (if k < 0 then 2 else 0), sdAbs a sg 1, dv]

/-- div.py:69-79 -/
def sdTailTZ (sg q m : Nat) : Stmt := .seqs [.trig (sdDiff sg) (inegA q), .trig [cMemX sg .exactly 1 1] (inegA m)]
/-- div.py:140-170; `chk` is the trigger `check`. -/
def sdTailF (sg q m : Nat) (chk : Stmt) : Stmt := .seqs [chk, .trig (sdDiff sg) (inegA q), .trig [cMemX sg .exactly 2 2] (inegA m)]
/-- div.py:224-251 -/
def sdTailE (sg q : Nat) (chk : Stmt) : Stmt := .seqs [chk, .trig (sdDiff sg) (inegA q)]

/-- div.py:143 -/
def sdCondF (sg m : Nat) : List PC := sdDiff sg ++ [cMem m .atLeast 1]
/-- div.py:227 -/
def sdCondE (sg m : Nat) : List PC := [cMemX sg .exactly 1 1, cMem m .atLeast 1]

/-- What the trigger `check` with a queued variable does: if the conditions hold, the actions `pre`, then the value of `v` is added at `x`. -/
def AddIfRel (L : Layout) (cs : List PC) (pre : List PA) (x v : Nat) (s s' : Mem) : Prop :=
  (∀ p ∈ cs, p.Ok L s) ∧ (holdsAll s cs = true → ActsOk L pre s) ∧
  s' = if holdsAll s cs then (runPA pre s).set x (runPA pre s x + runPA pre s (v + 348)) else s

/-- What the trigger `check` does for a constant divisor. -/
def DoIfRel (L : Layout) (cs : List PC) (pre : List PA) (s s' : Mem) : Prop :=
  (∀ p ∈ cs, p.Ok L s) ∧ (holdsAll s cs = true → ActsOk L pre s) ∧ s' = if holdsAll s cs then runPA pre s else s

/-- div.py:139-151, 162: the trigger `check` at `t` with the variable `v` and the trigger `ontrue` at `tj`. -/
structure AddIfCode (L : Layout) (t v tj onfalse : Nat) (cs : List PC) (pre : List PA) (x : Nat) : Prop where
  chk : (⟨t, ⟨cs.map PC.c, (.next t v :: .vnext v tj :: (pre.map QA.cell ++ [.dest v (epd x), .modi v .add])).map QA.act⟩, none, false⟩ : SBlk) ∈ L.P.blks
  ont : (⟨tj, ⟨[], [sNext t onfalse]⟩, some onfalse, false⟩ : SBlk) ∈ L.P.blks
  rest : (t, onfalse) ∈ L.rest
  hv : v ∈ L.P.vars
  vlt : v < 2 ^ 32
  jlt : tj < 2 ^ 32
  pc : PlacedC (t + 8) cs
  pa : PlacedA (t + 392) pre
  hx : L.cell x
  ex : EpdOK x

/-- div.py:153-162: the same with a constant. -/
structure DoIfCode (L : Layout) (t tj onfalse : Nat) (cs : List PC) (pre : List PA) : Prop where
  chk : (⟨t, ⟨cs.map PC.c, (.next t tj :: pre.map QA.cell).map QA.act⟩, none, false⟩ : SBlk) ∈ L.P.blks
  ont : (⟨tj, ⟨[], [sNext t onfalse]⟩, some onfalse, false⟩ : SBlk) ∈ L.P.blks
  rest : (t, onfalse) ∈ L.rest
  jlt : tj < 2 ^ 32
  pc : PlacedC (t + 8) cs
  pa : PlacedA (t + 360) pre

/-! ## What it does -/

theorem PlacedQ.cells : ∀ {pre : List PA} {x : Nat} {r : List QA}, PlacedA x pre → PlacedQ (x + 32 * pre.length) r → PlacedQ x (pre.map QA.cell ++ r)
  | [], x, r, _, h => by simpa using h
  | p :: ps, x, r, ⟨h1, h2⟩, h => by
    refine ⟨h1, PlacedQ.cells h2 ?_⟩
    rw [List.length_cons] at h
    rwa [show x + 32 + 32 * ps.length = x + 32 * (ps.length + 1) from by omega]

theorem runQA_cells : ∀ (pre : List PA) (r : List QA) (q : QS), runQA (pre.map QA.cell ++ r) q = runQA r ⟨q.d, q.K, runPA pre q.s⟩
  | [], _, _ => rfl
  | p :: ps, r, q => by
    simp only [List.map_cons, List.cons_append, runQA]
    rw [runQA_cells ps r]
    rfl

theorem QActsOk.cells {L : Layout} : ∀ {pre : List PA} {r : List QA} {q : QS}, ActsOk L pre q.s → QActsOk L r ⟨q.d, q.K, runPA pre q.s⟩ →
    QActsOk L (pre.map QA.cell ++ r) q
  | [], _, _, _, h => h
  | p :: ps, r, q, ⟨h1, h2, h3⟩, h => ⟨⟨h1, h2⟩, QActsOk.cells (q := (QA.cell p).run q) h3 h⟩

theorem AddIfCode.runs {L : Layout} (hw : L.Wf) {t v tj onfalse x : Nat} {cs : List PC} {pre : List PA}
    (hC : AddIfCode L t v tj onfalse cs pre x) {s s' : Mem} (h : AddIfRel L cs pre x v s s') : L.Runs s t s' onfalse := by
  obtain ⟨h1, h2, rfl⟩ := h
  have hrun : runQA (.next t v :: .vnext v tj :: (pre.map QA.cell ++ [.dest v (epd x), .modi v .add])) ⟨[], KB.none, s⟩ =
      ⟨[(t, v)], ((KB.none.up v fun k => { k with nxt := some tj }).up v fun k => { k with dst := some (epd x) }).up v fun k => { k with md := some .add },
        runPA pre s⟩ := by
    simp only [runQA, QA.run, runQA_cells]
  by_cases hh : holdsAll s cs = true
  · have st1 := Layout.Steps.trig hw (n := v) hC.chk hC.pc (q := ⟨[], KB.none, s⟩)
      (PlacedQ.cells hC.pa trivial) h1
      (fun hh => ⟨⟨⟨_, hC.rest⟩, hC.vlt⟩, ⟨hC.hv, hC.jlt⟩, QActsOk.cells (h2 hh) ⟨hC.hv, hC.hv, trivial⟩⟩)
      ⟨onfalse, hC.rest, by simp only [hh, if_true, hrun]; simp⟩
    simp only [hh, if_true, hrun] at st1 ⊢
    have st2 := Layout.Steps.var hw (q := ⟨[(t, v)], ((KB.none.up v fun k => { k with nxt := some tj }).up v fun k => { k with dst := some (epd x) }).up v
      fun k => { k with md := some .add }, runPA pre s⟩) (n := tj) hC.hv (by simp only [KB.up_eq]) hC.jlt (w := epd x) (by simp only [KB.up_eq])
      (dstOf_epd hC.ex) hC.hx (md := .add) (by simp only [KB.up_eq])
    simp only [Dst.addr, arith] at st2
    have st3 := Layout.Steps.trig hw (n := onfalse) (cs := []) (as := [.next t onfalse]) hC.ont trivial trivial
      (q := ⟨[(t, v)], ((KB.none.up v fun k => { k with nxt := some tj }).up v fun k => { k with dst := some (epd x) }).up v
      fun k => { k with md := some .add }, (runPA pre s).set x (runPA pre s x + runPA pre s (v + 348))⟩) (by simp)
      (fun _ => ⟨⟨⟨_, hC.rest⟩, (hw.rlt _ hC.rest)⟩, trivial⟩) rfl
    refine ((st1.trans st2).trans st3).runs hw ?_
    intro a b hab
    simp only [holdsAll, List.all_nil, if_true, runQA, QA.run, List.lookup_cons] at hab
    split at hab
    · rename_i e
      simp only [beq_iff_eq] at e
      cases hab; subst e; exact hC.rest
    · simp at hab
  · have st1 := Layout.Steps.trig hw (n := onfalse) hC.chk hC.pc (q := ⟨[], KB.none, s⟩)
      (PlacedQ.cells hC.pa trivial) h1
      (fun hh => ⟨⟨⟨_, hC.rest⟩, hC.vlt⟩, ⟨hC.hv, hC.jlt⟩, QActsOk.cells (h2 hh) ⟨hC.hv, hC.hv, trivial⟩⟩)
      ⟨onfalse, hC.rest, by rw [if_neg hh]; simp⟩
    rw [if_neg hh] at st1 ⊢
    exact st1.runs hw (by simp)

theorem DoIfCode.runs {L : Layout} (hw : L.Wf) {t tj onfalse : Nat} {cs : List PC} {pre : List PA}
    (hC : DoIfCode L t tj onfalse cs pre) {s s' : Mem} (h : DoIfRel L cs pre s s') : L.Runs s t s' onfalse := by
  obtain ⟨h1, h2, rfl⟩ := h
  have hrun : runQA (.next t tj :: pre.map QA.cell) ⟨[], KB.none, s⟩ = ⟨[(t, tj)], KB.none, runPA pre s⟩ := by
    have := runQA_cells pre [] ⟨[(t, tj)], KB.none, s⟩
    rw [List.append_nil] at this
    simp only [runQA, QA.run, this]
  have hok : holdsAll s cs = true → QActsOk L (.next t tj :: pre.map QA.cell) ⟨[], KB.none, s⟩ := fun hh => by
    have := QActsOk.cells (r := []) (q := (QA.next t tj).run ⟨[], KB.none, s⟩) (h2 hh) trivial
    rw [List.append_nil] at this
    exact ⟨⟨⟨_, hC.rest⟩, hC.jlt⟩, this⟩
  have hpl : PlacedQ (t + 328) (.next t tj :: pre.map QA.cell) := by
    have := PlacedQ.cells (r := []) hC.pa trivial
    rw [List.append_nil] at this
    exact this
  by_cases hh : holdsAll s cs = true
  · have st1 := Layout.Steps.trig hw (n := tj) hC.chk hC.pc (q := ⟨[], KB.none, s⟩) hpl h1 hok
      ⟨onfalse, hC.rest, by simp only [hh, if_true, hrun]; simp⟩
    simp only [hh, if_true, hrun] at st1 ⊢
    have st3 := Layout.Steps.trig hw (n := onfalse) (cs := []) (as := [.next t onfalse]) hC.ont trivial trivial
      (q := ⟨[(t, tj)], KB.none, runPA pre s⟩) (by simp)
      (fun _ => ⟨⟨⟨_, hC.rest⟩, (hw.rlt _ hC.rest)⟩, trivial⟩) rfl
    refine (st1.trans st3).runs hw ?_
    intro a b hab
    simp only [holdsAll, List.all_nil, if_true, runQA, QA.run, List.lookup_cons] at hab
    split at hab
    · rename_i e
      simp only [beq_iff_eq] at e
      cases hab; subst e; exact hC.rest
    · simp at hab
  · have st1 := Layout.Steps.trig hw (n := onfalse) hC.chk hC.pc (q := ⟨[], KB.none, s⟩) hpl h1 hok
      ⟨onfalse, hC.rest, by rw [if_neg hh]; simp⟩
    rw [if_neg hh] at st1 ⊢
    exact st1.runs hw (by simp)

variable {L : Layout}

theorem ineg_acts {a : Nat} (ha : L.cell a) (s : Mem) : ActsOk L (inegA a) s ∧ runPA (inegA a) s = s.set a (- s a) := by
  obtain ⟨i1, i2⟩ := inv_acts (as := [aMem a .add 1]) (s := s) ha (actsOk_mem ha trivial)
  refine ⟨i1, i2.trans ?_⟩
  simp only [runPA_cons, runPA_nil, aMem_run, set_eq, set_set, arith]
  rw [BitVec.neg_eq_not_add]
  rfl

/-- The flag for the given signs. -/
def sgW (na nb : Bool) : W := (if na then 1 else 0) + (if nb then 2 else 0)

/-- `if cond then ineg x`. -/
theorem negIf {cs : List PC} {x : Nat} (hx : L.cell x) {s : Mem} {c : Bool} (hc : ∀ p ∈ cs, p.Ok L s) (h : holdsAll s cs = c) :
    Does L (.trig cs (inegA x)) s fun s' => s' = s.set x (if c then - s x else s x) := by
  refine Does.trig hc (fun e => ⟨(ineg_acts hx s).1, ?_⟩) (fun e => ?_)
  · rw [(ineg_acts hx s).2, ← h, e, if_pos rfl]
  · rw [← h, e, if_neg (by simp), set_self]

theorem sdAbs_does {a sg : Nat} (ha : L.cell a) (hg : L.cell sg) (hne : a ≠ sg) (w : W) (s : Mem) :
    Does L (sdAbs a sg w) s fun s' => s' = (s.set sg (s sg + if isNeg (s a) then w else 0)).set a (mag (s a)) := by
  have hi := ineg_acts ha (s.set sg (s sg + w))
  have e : holdsAll s [cMem a .atLeast 0x80000000] = isNeg (s a) := by
    simp only [holdsAll, List.all_cons, List.all_nil, Bool.and_true, cMem_holds, compare, isNeg]
    rw [Bool.eq_iff_iff]
    simp [BitVec.not_lt]
  refine Does.trig (by simpa using cMem_ok ha _ _ _) (fun h => ⟨actsOk_mem hg (by simpa only [aMem_run, arith] using hi.1), ?_⟩) (fun h => ?_) <;>
    rw [e] at h
  · rw [h]
    have h' : ¬ s a < 0x80000000 := by simpa [isNeg] using h
    simp only [if_true, runPA_cons, aMem_run, arith, mag, if_neg h']
    rw [hi.2, set_ne hne]
  · rw [h]
    have h' : s a < 0x80000000 := by simpa [isNeg] using h
    simp only [Bool.false_eq_true, if_false, mag, if_pos h']
    rw [show s sg + 0 = s sg from BitVec.add_zero _, set_self, set_self]

theorem diff_holds {sg : Nat} {s : Mem} {na nb : Bool} (h : s sg = sgW na nb) : holdsAll s (sdDiff sg) = (na != nb) := by
  simp only [sdDiff, holdsAll, List.all_cons, List.all_nil, Bool.and_true, cMem_holds, h]
  cases na <;> cases nb <;> decide

theorem bit_holds {sg : Nat} {s : Mem} {na nb : Bool} (h : s sg = sgW na nb) :
    holdsAll s [cMemX sg .exactly 1 1] = na ∧ holdsAll s [cMemX sg .exactly 2 2] = nb := by
  simp only [holdsAll, List.all_cons, List.all_nil, Bool.and_true, cMemX_holds, h]
  cases na <;> cases nb <;> decide

/-- The places of the flag and the results. -/
structure SDCells (L : Layout) (sg q m : Nat) : Prop where
  cg : L.cell sg
  cq : L.cell q
  cm : L.cell m
  gq : sg ≠ q
  gm : sg ≠ m
  qm : q ≠ m

/-- The state after the unsigned division. -/
structure SDMid (s : Mem) (sg q m : Nat) (na nb : Bool) (x y : Nat) : Prop where
  g : s sg = sgW na nb
  q : s q = BitVec.ofNat 32 (x / y)
  m : s m = BitVec.ofNat 32 (x % y)

theorem ofInt_nat (n : Nat) : BitVec.ofInt 32 (n : Int) = BitVec.ofNat 32 n := BitVec.ofInt_natCast 32 n

theorem ofInt_succ (n : Nat) : BitVec.ofInt 32 ((n : Int) + 1) = BitVec.ofNat 32 n + 1#32 := by
  rw [BitVec.ofInt_add, ofInt_nat]; rfl

theorem ofInt_diff (y n : Nat) : BitVec.ofInt 32 ((y : Int) - n) = BitVec.ofNat 32 y - BitVec.ofNat 32 n := by
  rw [Int.sub_eq_add_neg, BitVec.ofInt_add, BitVec.ofInt_neg, ofInt_nat, ofInt_nat, BitVec.sub_eq_add_neg]

/-- A signed number from sign and magnitude. -/
def signed (n : Bool) (x : Nat) : Int := if n then -(x : Int) else x

theorem tailTZ {sg q m : Nat} (hc : SDCells L sg q m) {s : Mem} {na nb : Bool} {x y : Nat} (h : SDMid s sg q m na nb x y) (hy : 0 < y) :
    Does L (sdTailTZ sg q m) s fun s' => s' q = BitVec.ofInt 32 ((signed na x).tdiv (signed nb y)) ∧
      s' m = BitVec.ofInt 32 ((signed na x).tmod (signed nb y)) ∧ Only [q, m] s s' := by
  obtain ⟨a1, a2, -⟩ := div_signs x y hy na nb
  refine Does.seq ((negIf hc.cq (by simp [sdDiff, cMem_ok hc.cg]) (diff_holds h.g)).mono ?_)
  rintro s1 rfl
  have g1 : s.set q (if (na != nb) = true then -s q else s q) sg = sgW na nb := by rw [set_ne hc.gq, h.g]
  refine Does.seq ((negIf hc.cm (by simp [cMemX_ok hc.cg]) (bit_holds g1).1).mono ?_)
  rintro s2 rfl
  refine Does.skip ⟨?_, ?_, ?_⟩
  · rw [set_ne hc.qm, set_eq, h.q]
    unfold signed
    rw [a1]
    generalize x / y = Q
    generalize x % y = M
    cases na <;> cases nb <;> simp [BitVec.ofInt_neg, ofInt_nat, bne]
  · rw [set_eq, set_ne (Ne.symm hc.qm), h.m]
    unfold signed
    rw [a2]
    generalize x / y = Q
    generalize x % y = M
    cases na <;> simp [BitVec.ofInt_neg, ofInt_nat]
  · exact Only.set (Only.set (Only.refl _ _) (by simp) _) (by simp) _

/-- What the trigger `check` must do: with the conditions met, the quotient is increased and the remainder subtracted from `y`. -/
def ChkSpec (L : Layout) (chk : Stmt) (cs : List PC) (q m : Nat) (s : Mem) (y : W) : Prop :=
  Does L chk s fun s' => s' = if holdsAll s cs then (s.set q (s q + 1)).set m (- s m + y) else s

theorem modGe {s : Mem} {m x y : Nat} (h : s m = BitVec.ofNat 32 (x % y)) (hy : y < 2 ^ 32) (h0 : 0 < y) :
    (cMem m .atLeast 1).holds s = decide (1 ≤ x % y) := by
  have := Nat.mod_lt x h0
  rw [cMem_holds, h]
  simp only [compare]
  rw [Bool.eq_iff_iff]
  simp [BitVec.le_def]
  omega

theorem tailF {sg q m : Nat} (hc : SDCells L sg q m) {s : Mem} {na nb : Bool} {x y : Nat} (h : SDMid s sg q m na nb x y) (hy : 0 < y)
    (hlt : y < 2 ^ 32) {chk : Stmt} (hk : ChkSpec L chk (sdCondF sg m) q m s (BitVec.ofNat 32 y)) :
    Does L (sdTailF sg q m chk) s fun s' => s' q = BitVec.ofInt 32 ((signed na x).fdiv (signed nb y)) ∧
      s' m = BitVec.ofInt 32 ((signed na x).fmod (signed nb y)) ∧ Only [q, m] s s' := by
  obtain ⟨-, -, a1, a2, -⟩ := div_signs x y hy na nb
  have hml := Nat.mod_lt x hy
  have hcond : holdsAll s (sdCondF sg m) = ((na != nb) && decide (1 ≤ x % y)) := by
    unfold sdCondF
    rw [← diff_holds h.g, ← modGe h.m hlt hy]
    simp [holdsAll, List.all_append]
  refine Does.seq (Does.mono hk ?_)
  intro s1 hs1
  have o1 : Only [q, m] s s1 := by
    subst hs1
    split
    · exact Only.set (Only.set (Only.refl _ _) (by simp) _) (by simp) _
    · exact Only.refl _ _
  have q1 : s1 q = BitVec.ofNat 32 (x / y) + (if ((na != nb) && decide (1 ≤ x % y)) = true then 1 else 0) := by
    rw [hs1, hcond]
    split
    · rw [set_ne hc.qm, set_eq, h.q]
    · rw [h.q]; exact (BitVec.add_zero _).symm
  have m1 : s1 m = if ((na != nb) && decide (1 ≤ x % y)) = true then BitVec.ofNat 32 y - BitVec.ofNat 32 (x % y) else BitVec.ofNat 32 (x % y) := by
    rw [hs1, hcond]
    split
    · rw [set_eq, h.m, BitVec.add_comm, BitVec.sub_eq_add_neg]
    · rw [h.m]
  have g1 : s1 sg = sgW na nb := by rw [o1 sg (by simp [hc.gq, hc.gm]), h.g]
  refine Does.seq ((negIf hc.cq (by simp [sdDiff, cMem_ok hc.cg]) (diff_holds g1)).mono ?_)
  rintro s2 rfl
  have g2 : s1.set q (if (na != nb) = true then -s1 q else s1 q) sg = sgW na nb := by rw [set_ne hc.gq, g1]
  refine Does.seq ((negIf hc.cm (by simp [cMemX_ok hc.cg]) (bit_holds g2).2).mono ?_)
  rintro s3 rfl
  refine Does.skip ⟨?_, ?_, ?_⟩
  · rw [set_ne hc.qm, set_eq, q1]
    unfold signed
    rw [a1]
    generalize x / y = Q
    generalize x % y = M
    by_cases hm : 1 ≤ M <;> cases na <;> cases nb <;> simp [hm, BitVec.ofInt_neg, ofInt_nat, bne, BitVec.ofNat_add]
    all_goals exact (ofInt_succ _).symm
  · rw [set_eq, set_ne (Ne.symm hc.qm), m1]
    unfold signed
    rw [a2]
    generalize x / y = Q
    generalize x % y = M
    by_cases hm : 1 ≤ M <;> cases na <;> cases nb <;> simp [hm, BitVec.ofInt_neg, ofInt_nat, bne]
    all_goals first
      | exact (ofInt_diff _ _).symm
      | (rw [show M = 0 by omega])
  · exact Only.set (Only.set o1 (by simp) _) (by simp) _

theorem tailE {sg q m : Nat} (hc : SDCells L sg q m) {s : Mem} {na nb : Bool} {x y : Nat} (h : SDMid s sg q m na nb x y) (hy : 0 < y)
    (hlt : y < 2 ^ 32) {chk : Stmt} (hk : ChkSpec L chk (sdCondE sg m) q m s (BitVec.ofNat 32 y)) :
    Does L (sdTailE sg q chk) s fun s' => s' q = BitVec.ofInt 32 (signed na x / signed nb y) ∧
      s' m = BitVec.ofInt 32 (signed na x % signed nb y) ∧ Only [q, m] s s' := by
  obtain ⟨-, -, -, -, a1, a2⟩ := div_signs x y hy na nb
  have hml := Nat.mod_lt x hy
  have hcond : holdsAll s (sdCondE sg m) = (na && decide (1 ≤ x % y)) := by
    unfold sdCondE
    rw [← modGe h.m hlt hy]
    have := (bit_holds h.g).1
    simp only [holdsAll, List.all_cons, List.all_nil, Bool.and_true] at this ⊢
    rw [this]
  refine Does.seq (Does.mono hk ?_)
  intro s1 hs1
  have o1 : Only [q, m] s s1 := by
    subst hs1
    split
    · exact Only.set (Only.set (Only.refl _ _) (by simp) _) (by simp) _
    · exact Only.refl _ _
  have q1 : s1 q = BitVec.ofNat 32 (x / y) + (if (na && decide (1 ≤ x % y)) = true then 1 else 0) := by
    rw [hs1, hcond]
    split
    · rw [set_ne hc.qm, set_eq, h.q]
    · rw [h.q]; exact (BitVec.add_zero _).symm
  have m1 : s1 m = if (na && decide (1 ≤ x % y)) = true then BitVec.ofNat 32 y - BitVec.ofNat 32 (x % y) else BitVec.ofNat 32 (x % y) := by
    rw [hs1, hcond]
    split
    · rw [set_eq, h.m, BitVec.add_comm, BitVec.sub_eq_add_neg]
    · rw [h.m]
  have g1 : s1 sg = sgW na nb := by rw [o1 sg (by simp [hc.gq, hc.gm]), h.g]
  refine Does.seq ((negIf hc.cq (by simp [sdDiff, cMem_ok hc.cg]) (diff_holds g1)).mono ?_)
  rintro s2 rfl
  refine Does.skip ⟨?_, ?_, ?_⟩
  · rw [set_eq, q1]
    unfold signed
    rw [a1]
    generalize x / y = Q
    generalize x % y = M
    by_cases hm : 1 ≤ M <;> cases na <;> cases nb <;> simp [hm, BitVec.ofInt_neg, ofInt_nat, bne, BitVec.ofNat_add]
    all_goals exact (ofInt_succ _).symm
  · rw [set_ne (Ne.symm hc.qm), m1]
    unfold signed
    rw [a2]
    generalize x % y = M
    by_cases hm : 1 ≤ M <;> cases na <;> simp [hm, ofInt_nat]
    all_goals exact (ofInt_diff _ _).symm
  · exact Only.set o1 (by simp) _

/-! ## Whole routines -/

/-- Quotient and remainder of `f_div` (C21). -/
def udivW (a b : W) : W := if b = 0 then 0xFFFFFFFF else a / b
def umodW (a b : W) : W := if b = 0 then a else a % b

theorem udivW_ne {a b : W} (h : b ≠ 0) : udivW a b = BitVec.ofNat 32 (a.toNat / b.toNat) ∧ umodW a b = BitVec.ofNat 32 (a.toNat % b.toNat) := by
  unfold udivW umodW
  rw [if_neg h, if_neg h]
  have ha := a.isLt
  have h1 := Nat.div_le_self a.toNat b.toNat
  have h2 := Nat.mod_le a.toNat b.toNat
  constructor <;> apply BitVec.eq_of_toNat_eq <;> rw [BitVec.toNat_ofNat, Nat.mod_eq_of_lt (by omega)]
  · exact BitVec.toNat_udiv
  · exact BitVec.toNat_umod

theorem ofNat_self (w : W) : BitVec.ofNat 32 w.toNat = w := by simp

/-- The parameters `a`, `b` and the places of flag and results; the division `dv` keeps its operands and the flag. -/
structure SDCells2 (L : Layout) (a b sg q m : Nat) (scr : List Nat) : Prop extends SDCells L sg q m where
  ca : L.cell a
  cb : L.cell b
  ag : a ≠ sg
  bg : b ≠ sg
  ab : a ≠ b
  qa : q ≠ a
  qb : q ≠ b
  ma : m ≠ a
  mb : m ≠ b
  sg : sg ∉ scr
  sb : b ∉ scr

theorem signed_mag (w : W) : signed (isNeg w) (mag w).toNat = w.toInt := by rw [mag_toInt]; rfl

theorem head_does {a b sg q m : Nat} {scr : List Nat} (hc : SDCells2 L a b sg q m scr) {dv : Stmt}
    (hd : Comp2 L dv q m (fun s => udivW (s a) (s b)) (fun s => umodW (s a) (s b)) scr) (s : Mem) (hb : s b ≠ 0) :
    Does L (sdHead a b sg dv) s fun s' => SDMid s' sg q m (isNeg (s a)) (isNeg (s b)) (mag (s a)).toNat (mag (s b)).toNat ∧
      s' b = mag (s b) ∧ Only (sg :: a :: b :: q :: m :: scr) s s' := by
  refine Does.seq (Does.acts (actsOk_mem hc.cg trivial) ?_)
  simp only [runPA_cons, runPA_nil, aMem_run, arith]
  refine Does.seq ((sdAbs_does hc.ca hc.cg hc.ag 1 _).mono ?_)
  rintro s1 rfl
  refine Does.seq ((sdAbs_does hc.cb hc.cg hc.bg 2 _).mono ?_)
  rintro s2 rfl
  refine Does.seq ((hd _).mono ?_)
  rintro s3 ⟨e1, e2, e3⟩
  simp only [get_set, if_true, hc.ag, hc.bg, hc.ab, Ne.symm hc.ag, Ne.symm hc.bg, Ne.symm hc.ab, if_false] at e1 e2
  have hb' : mag (s b) ≠ 0 := fun e => hb (mag_zero e)
  obtain ⟨d1, d2⟩ := udivW_ne (a := mag (s a)) hb'
  refine Does.skip ⟨⟨?_, e1.trans d1, e2.trans d2⟩, ?_, ?_⟩
  · rw [e3 sg (by simp [hc.gq, hc.gm, hc.sg])]
    simp only [get_set, if_true, hc.ag, hc.bg, hc.ab, Ne.symm hc.ag, Ne.symm hc.bg, Ne.symm hc.ab, if_false, sgW]
    exact congrArg (· + _) (BitVec.zero_add _)
  · rw [e3 b (by simp [Ne.symm hc.qb, Ne.symm hc.mb, hc.sb])]
    simp only [get_set, if_true, hc.ag, hc.bg, hc.ab, Ne.symm hc.ag, Ne.symm hc.bg, Ne.symm hc.ab, if_false]
  · refine Only.trans ?_ (e3.mono (by simp; intro z hz; simp [hz]))
    exact Only.set (Only.set (Only.set (Only.set (Only.set (Only.refl _ _) (by simp) _) (by simp) _) (by simp) _) (by simp) _) (by simp) _

theorem headC_does {a sg q m : Nat} {scr : List Nat} (hc : SDCells L sg q m) (ca : L.cell a) (ag : a ≠ sg) (hs : sg ∉ scr) {dv : Stmt} {k : Int}
    (hk : k ≠ 0) (hlt : k.natAbs < 2 ^ 32)
    (hd : Comp2 L dv q m (fun s => udivW (s a) (BitVec.ofNat 32 k.natAbs)) (fun s => umodW (s a) (BitVec.ofNat 32 k.natAbs)) scr) (s : Mem) :
    Does L (sdHeadC a sg k dv) s fun s' => SDMid s' sg q m (isNeg (s a)) (decide (k < 0)) (mag (s a)).toNat k.natAbs ∧
      Only (sg :: a :: q :: m :: scr) s s' := by
  refine Does.seq (Does.acts (actsOk_mem hc.cg trivial) ?_)
  simp only [runPA_cons, runPA_nil, aMem_run, arith]
  refine Does.seq ((sdAbs_does ca hc.cg ag 1 _).mono ?_)
  rintro s1 rfl
  refine Does.seq ((hd _).mono ?_)
  rintro s3 ⟨e1, e2, e3⟩
  simp only [get_set, if_true, ag, Ne.symm ag, if_false] at e1 e2
  have hn : (BitVec.ofNat 32 k.natAbs).toNat = k.natAbs := by rw [BitVec.toNat_ofNat, Nat.mod_eq_of_lt hlt]
  have hb' : BitVec.ofNat 32 k.natAbs ≠ 0 := fun e => by
    have := congrArg BitVec.toNat e
    rw [hn] at this
    simp at this
    omega
  obtain ⟨d1, d2⟩ := udivW_ne (a := mag (s a)) hb'
  rw [hn] at d1 d2
  refine Does.skip ⟨⟨?_, e1.trans d1, e2.trans d2⟩, ?_⟩
  · rw [e3 sg (by simp [hc.gq, hc.gm, hs])]
    simp only [get_set, if_true, ag, Ne.symm ag, if_false, sgW, decide_eq_true_eq]
    exact BitVec.add_comm _ _
  · refine Only.trans ?_ (e3.mono (by simp; intro z hz; simp [hz]))
    exact Only.set (Only.set (Only.set (Only.refl _ _) (by simp) _) (by simp) _) (by simp) _

theorem signed_natAbs (k : Int) : signed (decide (k < 0)) k.natAbs = k := by
  unfold signed
  by_cases h : k < 0
  · rw [decide_eq_true h, if_pos rfl]; omega
  · rw [decide_eq_false h, if_neg (by simp)]; omega

/-- eudfuncn.py:157-166: `return q, m` with the result variables `r0`, `r1`. -/
def sdRet (q m r0 r1 : Nat) : Stmt := .seq (.asg [⟨r0 + 348, .set, .var q⟩, ⟨r1 + 348, .set, .var m⟩]) .ret

/-- div.py:49-83, the body of `f_div_towards_zero` for a variable divisor -/
def sdivTZ (a b sg q m r0 r1 : Nat) (dv : Stmt) : Stmt :=
  .seq (sdHead (a + 348) (b + 348) sg dv) (.seq (sdTailTZ sg (q + 348) (m + 348)) (sdRet q m r0 r1))
/-- the same for a constant divisor -/
def sdivTZC (a sg q m r0 r1 : Nat) (k : Int) (dv : Stmt) : Stmt :=
  .seq (sdHeadC (a + 348) sg k dv) (.seq (sdTailTZ sg (q + 348) (m + 348)) (sdRet q m r0 r1))

/-- The actions of the trigger `check` on values -/
def chkActs (q m : Nat) : List PA := aMem q .add 1 :: inegA m

/-- div.py:121-181, the body of `f_div_floor` for a variable divisor -/
def sdivF (L : Layout) (a b sg q m r0 r1 : Nat) (dv : Stmt) : Stmt :=
  .seq (sdHead (a + 348) (b + 348) sg dv) (.seq (sdTailF sg (q + 348) (m + 348)
    (.prim (AddIfRel L (sdCondF sg (m + 348)) (chkActs (q + 348) (m + 348)) (m + 348) b))) (sdRet q m r0 r1))
def sdivFC (L : Layout) (a sg q m r0 r1 : Nat) (k : Int) (dv : Stmt) : Stmt :=
  .seq (sdHeadC (a + 348) sg k dv) (.seq (sdTailF sg (q + 348) (m + 348)
    (.prim (DoIfRel L (sdCondF sg (m + 348)) (chkActs (q + 348) (m + 348) ++ [aMem (m + 348) .add (BitVec.ofNat 32 k.natAbs)])))) (sdRet q m r0 r1))

/-- div.py:197-253, the body of `f_div_euclid` for a variable divisor -/
def sdivE (L : Layout) (a b sg q m r0 r1 : Nat) (dv : Stmt) : Stmt :=
  .seq (sdHead (a + 348) (b + 348) sg dv) (.seq (sdTailE sg (q + 348)
    (.prim (AddIfRel L (sdCondE sg (m + 348)) (chkActs (q + 348) (m + 348)) (m + 348) b))) (sdRet q m r0 r1))
def sdivEC (L : Layout) (a sg q m r0 r1 : Nat) (k : Int) (dv : Stmt) : Stmt :=
  .seq (sdHeadC (a + 348) sg k dv) (.seq (sdTailE sg (q + 348)
    (.prim (DoIfRel L (sdCondE sg (m + 348)) (chkActs (q + 348) (m + 348) ++ [aMem (m + 348) .add (BitVec.ofNat 32 k.natAbs)])))) (sdRet q m r0 r1))

theorem chkActs_run {q m : Nat} (hq : L.cell q) (hm : L.cell m) (hqm : q ≠ m) (s : Mem) :
    ActsOk L (chkActs q m) s ∧ runPA (chkActs q m) s = (s.set q (s q + 1)).set m (- s m) := by
  obtain ⟨i1, i2⟩ := ineg_acts hm (s.set q (s q + 1))
  refine ⟨actsOk_mem hq (by simpa only [aMem_run, arith] using i1), ?_⟩
  simp only [chkActs, runPA_cons, aMem_run, arith]
  rw [i2, set_ne (Ne.symm hqm)]

theorem addIf_spec {cs : List PC} {q m b : Nat} (hq : L.cell q) (hm : L.cell m) (hqm : q ≠ m) (hqb : q ≠ b + 348) (hmb : m ≠ b + 348) {s : Mem}
    (hc : ∀ p ∈ cs, p.Ok L s) : ChkSpec L (.prim (AddIfRel L cs (chkActs q m) m b)) cs q m s (s (b + 348)) := by
  obtain ⟨i1, i2⟩ := chkActs_run hq hm hqm s
  refine Does.prim ⟨hc, fun _ => i1, rfl⟩ ?_
  rw [i2]
  simp only [set_eq, set_set, set_ne (Ne.symm hmb), set_ne (Ne.symm hqb)]

theorem doIf_spec {cs : List PC} {q m : Nat} (hq : L.cell q) (hm : L.cell m) (hqm : q ≠ m) {s : Mem} (y : W)
    (hc : ∀ p ∈ cs, p.Ok L s) : ChkSpec L (.prim (DoIfRel L cs (chkActs q m ++ [aMem m .add y]))) cs q m s y := by
  obtain ⟨i1, i2⟩ := ineg_acts hm (s.set q (s q + 1))
  obtain ⟨j1, j2⟩ := inv_acts (as := [aMem m .add 1, aMem m .add y]) (s := s.set q (s q + 1)) hm (actsOk_mem hm (actsOk_mem hm trivial))
  have e : runPA (chkActs q m ++ [aMem m .add y]) s = (s.set q (s q + 1)).set m (- s m + y) := by
    show runPA (aMemX m .add 0xFFFFFFFF 0x55555555 :: aMemX m .add 0xFFFFFFFF 0xAAAAAAAA :: [aMem m .add 1, aMem m .add y]) ((aMem q .add 1).run s) = _
    rw [aMem_run]
    refine j2.trans ?_
    simp only [runPA_cons, runPA_nil, aMem_run, arith, set_eq, set_set, set_ne (Ne.symm hqm)]
    rw [BitVec.neg_eq_not_add]
    rfl
  refine Does.prim ⟨hc, fun _ => actsOk_mem hq (by rw [aMem_run]; exact j1), rfl⟩ ?_
  rw [e]

theorem ret_wp {q m r0 r1 : Nat} (hq : q ∈ L.P.vars) (hm : m ∈ L.P.vars) (c0 : L.cell (r0 + 348)) (c1 : L.cell (r1 + 348)) (h0 : r0 ≠ m) (h01 : r0 ≠ r1)
    (s : Mem) : Wp L (sdRet q m r0 r1) s fun o s' => o = .ret ∧ s' (r0 + 348) = s (q + 348) ∧ s' (r1 + 348) = s (m + 348) ∧
      Only [r0 + 348, r1 + 348] s s' := by
  refine Wp.seqN (Does.asg (by simp [c0, c1]) (by simp [hq, hm]) (Wp.ret ⟨rfl, ?_, ?_, ?_⟩))
  · simp only [runAsg_cons, runAsg_nil, Src.valM, arith]
    rw [set_ne (by omega), set_eq]
  · simp only [runAsg_cons, runAsg_nil, Src.valM, arith]
    rw [set_eq, set_ne (by omega)]
  · simp only [runAsg_cons, runAsg_nil]
    exact Only.set (Only.set (Only.refl _ _) (by simp) _) (by simp) _

/-- The variables of the routines. -/
structure SDVars (L : Layout) (a b sg q m r0 r1 : Nat) (scr : List Nat) : Prop where
  va : a ∈ L.P.vars
  vb : b ∈ L.P.vars
  vq : q ∈ L.P.vars
  vm : m ∈ L.P.vars
  cg : L.cell sg
  c0 : L.cell (r0 + 348)
  c1 : L.cell (r1 + 348)
  hg : sg ≠ a + 348 ∧ sg ≠ b + 348 ∧ sg ≠ q + 348 ∧ sg ≠ m + 348
  nd : [a, b, q, m].Nodup
  h0 : r0 ≠ m
  h01 : r0 ≠ r1
  sg : sg ∉ scr
  sb : b + 348 ∉ scr

theorem SDVars.cells {a b sg q m r0 r1 : Nat} {scr : List Nat} (hw : L.Wf) (h : SDVars L a b sg q m r0 r1 scr) :
    SDCells2 L (a + 348) (b + 348) sg (q + 348) (m + 348) scr := by
  obtain ⟨g1, g2, g3, g4⟩ := h.hg
  have := h.nd
  simp only [List.nodup_cons, List.mem_cons, List.not_mem_nil, or_false, not_or, not_false_eq_true, List.nodup_nil, and_true] at this
  exact ⟨⟨h.cg, cell_val hw h.vq, cell_val hw h.vm, g3, g4, by omega⟩, cell_val hw h.va, cell_val hw h.vb, by omega, by omega, by omega, by omega,
    by omega, by omega, by omega, h.sg, h.sb⟩

/-- The dwords that signed division may change. -/
def sdOnly (a b sg q m r0 r1 : Nat) (scr : List Nat) : List Nat :=
  [r0 + 348, r1 + 348, sg, a + 348, b + 348, q + 348, m + 348] ++ scr

/-- **C43 (`f_div_towards_zero`).** For every dividend and every divisor except 0, read as two's complement, the quotient is rounded
towards zero and the remainder belongs to it. -/
theorem C43_towards_zero (hw : L.Wf) {a b sg q m r0 r1 : Nat} {scr : List Nat} (hc : SDVars L a b sg q m r0 r1 scr) {dv : Stmt}
    (hd : Comp2 L dv (q + 348) (m + 348) (fun s => udivW (s (a + 348)) (s (b + 348))) (fun s => umodW (s (a + 348)) (s (b + 348))) scr)
    (s : Mem) (hb : s (b + 348) ≠ 0) :
    Wp L (sdivTZ a b sg q m r0 r1 dv) s fun o s' => o = .ret ∧
      s' (r0 + 348) = BitVec.ofInt 32 ((s (a + 348)).toInt.tdiv (s (b + 348)).toInt) ∧
      s' (r1 + 348) = BitVec.ofInt 32 ((s (a + 348)).toInt.tmod (s (b + 348)).toInt) ∧ Only (sdOnly a b sg q m r0 r1 scr) s s' := by
  have hk := hc.cells hw
  refine Wp.seqN ((head_does hk hd s hb).mono ?_)
  rintro s1 ⟨h1, -, o1⟩
  refine Wp.seqN ((tailTZ hk.toSDCells h1 (mag_pos hb)).mono ?_)
  rintro s2 ⟨q2, m2, o2⟩
  refine (ret_wp hc.vq hc.vm hc.c0 hc.c1 hc.h0 hc.h01 s2).mono ?_
  rintro o s3 ⟨rfl, q3, m3, o3⟩
  rw [signed_mag, signed_mag] at q2 m2
  refine ⟨rfl, q3.trans q2, m3.trans m2, ?_⟩
  exact ((o1.mono (by simp [sdOnly]; intro z hz; simp [hz])).trans (o2.mono (by simp [sdOnly]))).trans (o3.mono (by simp [sdOnly]))

/-- **C43 (`f_div_floor`).** The quotient is rounded towards negative infinity. -/
theorem C43_floor (hw : L.Wf) {a b sg q m r0 r1 : Nat} {scr : List Nat} (hc : SDVars L a b sg q m r0 r1 scr) {dv : Stmt}
    (hd : Comp2 L dv (q + 348) (m + 348) (fun s => udivW (s (a + 348)) (s (b + 348))) (fun s => umodW (s (a + 348)) (s (b + 348))) scr)
    (s : Mem) (hb : s (b + 348) ≠ 0) :
    Wp L (sdivF L a b sg q m r0 r1 dv) s fun o s' => o = .ret ∧
      s' (r0 + 348) = BitVec.ofInt 32 ((s (a + 348)).toInt.fdiv (s (b + 348)).toInt) ∧
      s' (r1 + 348) = BitVec.ofInt 32 ((s (a + 348)).toInt.fmod (s (b + 348)).toInt) ∧ Only (sdOnly a b sg q m r0 r1 scr) s s' := by
  have hk := hc.cells hw
  refine Wp.seqN ((head_does hk hd s hb).mono ?_)
  rintro s1 ⟨h1, b1, o1⟩
  have hs := addIf_spec (cs := sdCondF sg (m + 348)) (s := s1) hk.cq hk.cm hk.qm hk.qb hk.mb (by simp [sdCondF, sdDiff, cMem_ok hk.cg, cMem_ok hk.cm])
  rw [b1, ← ofNat_self (mag (s (b + 348)))] at hs
  refine Wp.seqN ((tailF hk.toSDCells h1 (mag_pos hb) (mag (s (b + 348))).isLt hs).mono ?_)
  rintro s2 ⟨q2, m2, o2⟩
  refine (ret_wp hc.vq hc.vm hc.c0 hc.c1 hc.h0 hc.h01 s2).mono ?_
  rintro o s3 ⟨rfl, q3, m3, o3⟩
  rw [signed_mag, signed_mag] at q2 m2
  refine ⟨rfl, q3.trans q2, m3.trans m2, ?_⟩
  exact ((o1.mono (by simp [sdOnly]; intro z hz; simp [hz])).trans (o2.mono (by simp [sdOnly]))).trans (o3.mono (by simp [sdOnly]))

/-- **C43 (`f_div_euclid`).** The remainder is not negative. -/
theorem C43_euclid (hw : L.Wf) {a b sg q m r0 r1 : Nat} {scr : List Nat} (hc : SDVars L a b sg q m r0 r1 scr) {dv : Stmt}
    (hd : Comp2 L dv (q + 348) (m + 348) (fun s => udivW (s (a + 348)) (s (b + 348))) (fun s => umodW (s (a + 348)) (s (b + 348))) scr)
    (s : Mem) (hb : s (b + 348) ≠ 0) :
    Wp L (sdivE L a b sg q m r0 r1 dv) s fun o s' => o = .ret ∧
      s' (r0 + 348) = BitVec.ofInt 32 ((s (a + 348)).toInt / (s (b + 348)).toInt) ∧
      s' (r1 + 348) = BitVec.ofInt 32 ((s (a + 348)).toInt % (s (b + 348)).toInt) ∧ Only (sdOnly a b sg q m r0 r1 scr) s s' := by
  have hk := hc.cells hw
  refine Wp.seqN ((head_does hk hd s hb).mono ?_)
  rintro s1 ⟨h1, b1, o1⟩
  have hs := addIf_spec (cs := sdCondE sg (m + 348)) (s := s1) hk.cq hk.cm hk.qm hk.qb hk.mb (by simp [sdCondE, cMemX_ok hk.cg, cMem_ok hk.cm])
  rw [b1, ← ofNat_self (mag (s (b + 348)))] at hs
  refine Wp.seqN ((tailE hk.toSDCells h1 (mag_pos hb) (mag (s (b + 348))).isLt hs).mono ?_)
  rintro s2 ⟨q2, m2, o2⟩
  refine (ret_wp hc.vq hc.vm hc.c0 hc.c1 hc.h0 hc.h01 s2).mono ?_
  rintro o s3 ⟨rfl, q3, m3, o3⟩
  rw [signed_mag, signed_mag] at q2 m2
  refine ⟨rfl, q3.trans q2, m3.trans m2, ?_⟩
  exact ((o1.mono (by simp [sdOnly]; intro z hz; simp [hz])).trans (o2.mono (by simp [sdOnly]))).trans (o3.mono (by simp [sdOnly]))

/-- What is needed for constant divisors. -/
theorem C43_const_mid (hw : L.Wf) {a b sg q m r0 r1 : Nat} {scr : List Nat} (hc : SDVars L a b sg q m r0 r1 scr) {dv : Stmt} {k : Int}
    (hk0 : k ≠ 0) (hlt : k.natAbs < 2 ^ 32)
    (hd : Comp2 L dv (q + 348) (m + 348) (fun s => udivW (s (a + 348)) (BitVec.ofNat 32 k.natAbs)) (fun s => umodW (s (a + 348)) (BitVec.ofNat 32 k.natAbs)) scr)
    (s : Mem) : Does L (sdHeadC (a + 348) sg k dv) s fun s' =>
      SDMid s' sg (q + 348) (m + 348) (isNeg (s (a + 348))) (decide (k < 0)) (mag (s (a + 348))).toNat k.natAbs ∧ Only (sdOnly a b sg q m r0 r1 scr) s s' := by
  have hk := hc.cells hw
  refine (headC_does hk.toSDCells hk.ca hk.ag hk.sg hk0 hlt hd s).mono ?_
  rintro s1 ⟨h1, o1⟩
  exact ⟨h1, o1.mono (by simp [sdOnly]; intro z hz; simp [hz])⟩

/-- **C43 (constant divisors, towards zero).** The divisor is the python integer itself: 0xFFFFFFFF is not read as -1. -/
theorem C43_towards_zero_const (hw : L.Wf) {a b sg q m r0 r1 : Nat} {scr : List Nat} (hc : SDVars L a b sg q m r0 r1 scr) {dv : Stmt} {k : Int}
    (hk0 : k ≠ 0) (hlt : k.natAbs < 2 ^ 32)
    (hd : Comp2 L dv (q + 348) (m + 348) (fun s => udivW (s (a + 348)) (BitVec.ofNat 32 k.natAbs)) (fun s => umodW (s (a + 348)) (BitVec.ofNat 32 k.natAbs)) scr)
    (s : Mem) :
    Wp L (sdivTZC a sg q m r0 r1 k dv) s fun o s' => o = .ret ∧ s' (r0 + 348) = BitVec.ofInt 32 ((s (a + 348)).toInt.tdiv k) ∧
      s' (r1 + 348) = BitVec.ofInt 32 ((s (a + 348)).toInt.tmod k) ∧ Only (sdOnly a b sg q m r0 r1 scr) s s' := by
  have hk := hc.cells hw
  refine Wp.seqN ((C43_const_mid hw hc hk0 hlt hd s).mono ?_)
  rintro s1 ⟨h1, o1⟩
  refine Wp.seqN ((tailTZ hk.toSDCells h1 (by omega)).mono ?_)
  rintro s2 ⟨q2, m2, o2⟩
  refine (ret_wp hc.vq hc.vm hc.c0 hc.c1 hc.h0 hc.h01 s2).mono ?_
  rintro o s3 ⟨rfl, q3, m3, o3⟩
  rw [signed_mag, signed_natAbs] at q2 m2
  refine ⟨rfl, q3.trans q2, m3.trans m2, ?_⟩
  exact (o1.trans (o2.mono (by simp [sdOnly]))).trans (o3.mono (by simp [sdOnly]))

theorem C43_floor_const (hw : L.Wf) {a b sg q m r0 r1 : Nat} {scr : List Nat} (hc : SDVars L a b sg q m r0 r1 scr) {dv : Stmt} {k : Int}
    (hk0 : k ≠ 0) (hlt : k.natAbs < 2 ^ 32)
    (hd : Comp2 L dv (q + 348) (m + 348) (fun s => udivW (s (a + 348)) (BitVec.ofNat 32 k.natAbs)) (fun s => umodW (s (a + 348)) (BitVec.ofNat 32 k.natAbs)) scr)
    (s : Mem) :
    Wp L (sdivFC L a sg q m r0 r1 k dv) s fun o s' => o = .ret ∧ s' (r0 + 348) = BitVec.ofInt 32 ((s (a + 348)).toInt.fdiv k) ∧
      s' (r1 + 348) = BitVec.ofInt 32 ((s (a + 348)).toInt.fmod k) ∧ Only (sdOnly a b sg q m r0 r1 scr) s s' := by
  have hk := hc.cells hw
  refine Wp.seqN ((C43_const_mid hw hc hk0 hlt hd s).mono ?_)
  rintro s1 ⟨h1, o1⟩
  have hs := doIf_spec (cs := sdCondF sg (m + 348)) (s := s1) hk.cq hk.cm hk.qm (BitVec.ofNat 32 k.natAbs) (by simp [sdCondF, sdDiff, cMem_ok hk.cg, cMem_ok hk.cm])
  refine Wp.seqN ((tailF hk.toSDCells h1 (by omega) hlt hs).mono ?_)
  rintro s2 ⟨q2, m2, o2⟩
  refine (ret_wp hc.vq hc.vm hc.c0 hc.c1 hc.h0 hc.h01 s2).mono ?_
  rintro o s3 ⟨rfl, q3, m3, o3⟩
  rw [signed_mag, signed_natAbs] at q2 m2
  refine ⟨rfl, q3.trans q2, m3.trans m2, ?_⟩
  exact (o1.trans (o2.mono (by simp [sdOnly]))).trans (o3.mono (by simp [sdOnly]))

theorem C43_euclid_const (hw : L.Wf) {a b sg q m r0 r1 : Nat} {scr : List Nat} (hc : SDVars L a b sg q m r0 r1 scr) {dv : Stmt} {k : Int}
    (hk0 : k ≠ 0) (hlt : k.natAbs < 2 ^ 32)
    (hd : Comp2 L dv (q + 348) (m + 348) (fun s => udivW (s (a + 348)) (BitVec.ofNat 32 k.natAbs)) (fun s => umodW (s (a + 348)) (BitVec.ofNat 32 k.natAbs)) scr)
    (s : Mem) :
    Wp L (sdivEC L a sg q m r0 r1 k dv) s fun o s' => o = .ret ∧ s' (r0 + 348) = BitVec.ofInt 32 ((s (a + 348)).toInt / k) ∧
      s' (r1 + 348) = BitVec.ofInt 32 ((s (a + 348)).toInt % k) ∧ Only (sdOnly a b sg q m r0 r1 scr) s s' := by
  have hk := hc.cells hw
  refine Wp.seqN ((C43_const_mid hw hc hk0 hlt hd s).mono ?_)
  rintro s1 ⟨h1, o1⟩
  have hs := doIf_spec (cs := sdCondE sg (m + 348)) (s := s1) hk.cq hk.cm hk.qm (BitVec.ofNat 32 k.natAbs) (by simp [sdCondE, cMemX_ok hk.cg, cMem_ok hk.cm])
  refine Wp.seqN ((tailE hk.toSDCells h1 (by omega) hlt hs).mono ?_)
  rintro s2 ⟨q2, m2, o2⟩
  refine (ret_wp hc.vq hc.vm hc.c0 hc.c1 hc.h0 hc.h01 s2).mono ?_
  rintro o s3 ⟨rfl, q3, m3, o3⟩
  rw [signed_mag, signed_natAbs] at q2 m2
  refine ⟨rfl, q3.trans q2, m3.trans m2, ?_⟩
  exact (o1.trans (o2.mono (by simp [sdOnly]))).trans (o3.mono (by simp [sdOnly]))

/-- **C43 (quotient and remainder belong together).** For each of the three roundings `q * b + r = a` on dwords, and the remainder has
the documented sign. -/
theorem C43_identity (a b : W) (hb : b ≠ 0) :
    BitVec.ofInt 32 (a.toInt.tdiv b.toInt) * b + BitVec.ofInt 32 (a.toInt.tmod b.toInt) = a ∧
    BitVec.ofInt 32 (a.toInt.fdiv b.toInt) * b + BitVec.ofInt 32 (a.toInt.fmod b.toInt) = a ∧
    BitVec.ofInt 32 (a.toInt / b.toInt) * b + BitVec.ofInt 32 (a.toInt % b.toInt) = a ∧
    (0 ≤ a.toInt → 0 ≤ a.toInt.tmod b.toInt) ∧ (a.toInt ≤ 0 → a.toInt.tmod b.toInt ≤ 0) ∧
    (0 < b.toInt → 0 ≤ a.toInt.fmod b.toInt) ∧ (b.toInt < 0 → a.toInt.fmod b.toInt ≤ 0) ∧
    0 ≤ a.toInt % b.toInt ∧ (a.toInt % b.toInt).natAbs < b.toInt.natAbs ∧ (a.toInt.tmod b.toInt).natAbs < b.toInt.natAbs ∧
    (a.toInt.fmod b.toInt).natAbs < b.toInt.natAbs := by
  have h0 : b.toInt ≠ 0 := fun h => hb (BitVec.eq_of_toInt_eq (by simpa using h))
  have key : ∀ q r : Int, q * b.toInt + r = a.toInt → BitVec.ofInt 32 q * b + BitVec.ofInt 32 r = a := by
    intro q r h
    have : BitVec.ofInt 32 (q * b.toInt + r) = BitVec.ofInt 32 a.toInt := by rw [h]
    rwa [BitVec.ofInt_add, BitVec.ofInt_mul, BitVec.ofInt_toInt, BitVec.ofInt_toInt] at this
  refine ⟨key _ _ (by rw [Int.mul_comm]; exact Int.mul_tdiv_add_tmod _ _), key _ _ (by rw [Int.mul_comm]; exact Int.mul_fdiv_add_fmod _ _),
    key _ _ (by rw [Int.mul_comm]; exact Int.mul_ediv_add_emod _ _), ?_, ?_, ?_, ?_, ?_, ?_, ?_, ?_⟩
  · intro h; exact Int.tmod_nonneg _ h
  · intro h
    have := Int.tmod_nonneg b.toInt (show 0 ≤ -a.toInt by omega)
    rw [Int.neg_tmod] at this; omega
  · intro h; exact Int.fmod_nonneg_of_pos _ h
  · intro h
    have := Int.fmod_nonneg_of_pos (-a.toInt) (show 0 < -b.toInt by omega)
    rw [Int.neg_fmod_neg] at this; omega
  · exact Int.emod_nonneg _ h0
  · have h1 := Int.emod_nonneg a.toInt h0
    have h2 := Int.emod_lt a.toInt h0
    omega
  · rw [Int.natAbs_tmod]
    exact Nat.mod_lt _ (by omega)
  · rcases Int.lt_or_gt_of_ne h0 with h | h
    · have h1 := Int.fmod_nonneg_of_pos (-a.toInt) (show 0 < -b.toInt by omega)
      have h2 := Int.fmod_lt_of_pos (-a.toInt) (show 0 < -b.toInt by omega)
      rw [Int.neg_fmod_neg] at h1 h2; omega
    · have h1 := Int.fmod_nonneg_of_pos a.toInt h
      have h2 := Int.fmod_lt_of_pos a.toInt h
      omega

/-- The trigger `check` is code for what it does. -/
theorem AddIfCode.code (hw : L.Wf) {t v tj onfalse x r b k : Nat} {cs : List PC} {pre : List PA} (hC : AddIfCode L t v tj onfalse cs pre x) :
    Code L r b k (.prim (AddIfRel L cs pre x v)) t onfalse := .prim fun _ _ h => hC.runs hw h

theorem DoIfCode.code (hw : L.Wf) {t tj onfalse r b k : Nat} {cs : List PC} {pre : List PA} (hC : DoIfCode L t tj onfalse cs pre) :
    Code L r b k (.prim (DoIfRel L cs pre)) t onfalse := .prim fun _ _ h => hC.runs hw h

end Eud.SC
