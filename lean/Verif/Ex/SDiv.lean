import Verif.Lib.SDiv
import Verif.Ex.DivLib
/-
Examples for C43: signed divisions that call the division function.
-/

namespace Eud.SC

namespace ExSDiv
open ExC21d (ent bl some_eq)
open ExDiv (r0 r1 fend nptr start scr)

/-- A run of triggers at `trigAt n`, `trigAt (n + 1)`, ..., going on at `x`. -/
def trigs (x : Nat) : Nat → List (List PC × List PA) → List SBlk
  | _, [] => []
  | n, [p] => [⟨trigAt n, ⟨p.1.map PC.c, p.2.map PA.a⟩, some x, false⟩]
  | n, p :: q :: l => ⟨trigAt n, ⟨p.1.map PC.c, p.2.map PA.a⟩, some (trigAt (n + 1)), false⟩ :: trigs x (n + 1) (q :: l)

def placedB : Nat → List (List PC × List PA) → Bool
  | _, [] => true
  | n, p :: l => placedCB (trigAt n + 8) p.1 && placedAB (trigAt n + 328) p.2 && placedB (n + 1) l

theorem trigs_code {L : Layout} {r b k x y : Nat} {st : List Stmt} (hst : Code L r b k (.seqs st) x y) : ∀ (l : List (List PC × List PA)) (n : Nat), l ≠ [] →
    (∀ q ∈ trigs x n l, q ∈ L.P.blks) → placedB n l = true → Code L r b k (.seqs (l.map (fun p => .trig p.1 p.2) ++ st)) (trigAt n) y
  | [], _, h, _, _ => absurd rfl h
  | [p], n, _, h, hp => by
    simp only [placedB, Bool.and_eq_true] at hp
    exact .seq (.trig (placedCB_spec hp.1.1) (placedAB_spec hp.1.2) (h _ (by simp [trigs]))) hst
  | p :: q :: l, n, _, h, hp => by
    rw [placedB] at hp
    simp only [Bool.and_eq_true] at hp
    refine .seq (m := trigAt (n + 1)) (.trig (placedCB_spec hp.1.1) (placedAB_spec hp.1.2) (h _ (by simp [trigs]))) ?_
    exact trigs_code hst (q :: l) (n + 1) (by simp) (fun q' hq => h _ (by simp only [trigs, List.mem_cons]; exact Or.inr hq)) hp.2

/-- operands, quotient, remainder, results, sign flag -/
def A : Nat := exVar 4
def B : Nat := exVar 5
def q : Nat := exVar 6
def m : Nat := exVar 7
def R0 : Nat := exVar 8
def R1 : Nat := exVar 9
def sg : Nat := exVar 10 + 348

def ret : Option (Nat × List Blk) := emitAsg retAt 500 [⟨R0 + 348, .set, .var q⟩, ⟨R1 + 348, .set, .var m⟩]
def rs : List (Nat × Nat) := [(r0, q + 348), (r1, m + 348)]
def args (sb : Src) : List (Nat × Src) := [(ExDiv.a + 348, .var A), (ExDiv.b + 348, sb)]
/-- where the triggers behind the call begin, the trigger `check`, `ontrue` -/
def tailAt : Nat := trigAt 330
def chkAt : Nat := trigAt 325
def ontAt : Nat := trigAt 326

structure Cfg where
  sb : Src
  heads : List (List PC × List PA)
  chk : Option (List SAct × List PC)
  tails : List (List PC × List PA)

def Cfg.back (c : Cfg) : Nat := if c.chk.isSome then chkAt else tailAt
def Cfg.site (c : Cfg) : Option (Nat × List Blk) := emitAsg (ent start) 400 (callAsg nptr c.back rs (args c.sb))
def Cfg.chks (c : Cfg) : List SBlk := match c.chk with
  | none => []
  | some (as, cs) => [⟨chkAt, ⟨cs.map PC.c, as⟩, none, false⟩, ⟨ontAt, ⟨[], [sNext chkAt tailAt]⟩, some tailAt, false⟩]

def Cfg.L (c : Cfg) : Layout :=
  ⟨⟨ExDiv.blks ++ trigs (ent c.site) 320 c.heads ++ c.chks ++ trigs (ent ret) 330 c.tails,
    ExDiv.seqs ++ bl c.site ++ bl ret, (List.range 11).map exVar⟩, ExDiv.rest ++ (if c.chk.isSome then [(chkAt, tailAt)] else []), []⟩

theorem inDiv (c : Cfg) : ExDiv.In c.L := by
  refine ⟨?_, ?_, ?_, ?_⟩
  · intro q hq; simp only [Cfg.L, List.mem_append]; exact Or.inl (Or.inl (Or.inl hq))
  · intro q hq; simp only [Cfg.L, List.mem_append]; exact Or.inl (Or.inl hq)
  · intro q hq; simp only [Cfg.L, List.mem_append]; exact Or.inl hq
  · intro i hi; simp only [Cfg.L, List.mem_map, List.mem_range]; exact ⟨i, by omega, rfl⟩

theorem vars (c : Cfg) : ∀ i < 11, exVar i ∈ c.L.P.vars := by
  intro i hi; simp only [Cfg.L, List.mem_map, List.mem_range]; exact ⟨i, by omega, rfl⟩

def vs (a b : W) : List W := [0, 0, 0, 0, a, b, 9, 9, 9, 9, 9]

/-- What is checked of a configuration by computation. -/
structure Cfg.Ok (c : Cfg) : Prop where
  laid : c.L.laidB exBuf 11 = true
  cells : ∀ x ∈ [nptr, r0 + 4, r1 + 4, r0 + 344, r1 + 344, r0 + 348, r1 + 348], c.L.cellB x = true
  site : c.site.isSome = true
  src : ∀ v, c.sb = .var v → v = B
  heads : placedB 320 c.heads = true ∧ c.heads ≠ []
  tails : placedB 330 c.tails = true ∧ c.tails ≠ []

variable {c : Cfg} (hc : c.Ok)
include hc

theorem hl {v : List W} (h : v.length = 11) : c.L.Laid exBuf v := Layout.laidB_spec (by rw [h]; exact hc.laid)
theorem hl0 : c.L.Laid exBuf (vs 0 0) := hl hc rfl
theorem cellL {x : Nat} (h : x ∈ [nptr, r0 + 4, r1 + 4, r0 + 344, r1 + 344, r0 + 348, r1 + 348]) : c.L.cell x := (hl0 hc).cellB (hc.cells x h)
theorem cellV {i : Nat} (h : i < 11) : c.L.cell (exVar i + 348) := (hl0 hc).exCell h

theorem fcode : FuncCode c.L (ent start) fend nptr [r0, r1] (eudDiv ExDiv.a ExDiv.b ExDiv.ret ExDiv.x r0 r1 ExC21d.t) :=
  ExDiv.fcode (inDiv c) (cellL hc (by simp)) (cellL hc (by simp)) (cellL hc (by simp))

theorem callOk : CallOk c.L nptr rs (args c.sb) scr := by
  have hs := hc.src
  have haa : ∀ v, c.sb = .var v → v = B := hs
  refine ⟨cellL hc (by simp), ?_, ?_, ?_, by decide, by decide, ?_, ?_, ?_, by decide, by decide, by decide +kernel, by decide +kernel, by decide⟩ <;>
    simp only [rs, args, List.forall_mem_cons, List.not_mem_nil, false_imp_iff, implies_true, and_true, Src.var.injEq, forall_eq']
  · exact ⟨⟨cellL hc (by simp), cellV hc (i := 6) (by omega), by decide⟩, cellL hc (by simp), cellV hc (i := 7) (by omega), by decide⟩
  · exact ⟨⟨cellV hc (i := 0) (by omega), vars c 4 (by omega)⟩, cellV hc (i := 1) (by omega), fun v h => by rw [haa v h]; exact vars c 5 (by omega)⟩
  · show [ExDiv.a + 348, ExDiv.b + 348].Nodup; decide
  · exact ⟨⟨by decide, fun v h => by rw [haa v h]; decide⟩, by decide, fun v h => by rw [haa v h]; decide⟩
  · exact ⟨by decide, fun v h => by rw [haa v h]; decide⟩
  · decide

theorem site_code : CallSite c.L (ent c.site) c.back (ent start) nptr rs (args c.sb) :=
  ⟨⟨0, 0, 0, emitAsg_code (some_eq hc.site) (by intro q hq; simp only [Cfg.L, List.mem_append]; exact Or.inl (Or.inr hq)) _ _ _⟩, by
    unfold Cfg.back; split <;> decide⟩

omit hc in
def call (c : Cfg) : Stmt := .prim (CallRel c.L fend nptr c.back (eudDiv ExDiv.a ExDiv.b ExDiv.ret ExDiv.x r0 r1 ExC21d.t) rs (args c.sb))

omit hc in
def cscr (c : Cfg) : List Nat := callOnly nptr rs (args c.sb) scr

theorem dv : Comp2 c.L (call c) (q + 348) (m + 348) (fun s => udivW (s (A + 348)) (c.sb.valM s)) (fun s => umodW (s (A + 348)) (c.sb.valM s)) (cscr c) :=
  C21_call (hl0 hc).wf (ExDiv.cells (inDiv c) (hl0 hc)) (vars c 0 (by omega)) (vars c 1 (by omega)) (vars c 2 (by omega)) (cellL hc (by simp)) (cellL hc (by simp))
    (by decide) (by decide) (by decide) rfl (callOk hc) (fcode hc) (site_code hc).back

theorem head_code (r b k : Nat) : Code c.L r b k (.seqs (c.heads.map (fun p => .trig p.1 p.2) ++ [call c])) (trigAt 320) c.back := by
  refine trigs_code (.seq (C31_call (hl0 hc).wf (fcode hc) (site_code hc) (by decide) _ _ _) .skip) _ _ hc.heads.2 ?_ hc.heads.1
  intro q hq; simp only [Cfg.L, List.mem_append]; exact Or.inl (Or.inl (Or.inr hq))

theorem tail_code (r b k : Nat) : Code c.L r b k (.seqs (c.tails.map (fun p => .trig p.1 p.2))) tailAt (ent ret) := by
  have := trigs_code (L := c.L) (r := r) (b := b) (k := k) (x := ent ret) (st := []) .skip c.tails 330 hc.tails.2 ?_ hc.tails.1
  · rw [List.append_nil] at this; exact this
  · intro q hq; simp only [Cfg.L, List.mem_append]; exact Or.inr hq

omit hc in
theorem ret_code (b k y : Nat) : Code c.L retAt b k (sdRet q m R0 R1) (ent ret) y := by
  refine .seq (emitAsg_code (some_eq (by decide +kernel)) ?_ _ _ _) .ret
  intro q hq; simp only [Cfg.L, List.mem_append]; exact Or.inr hq

theorem sdvars : SDVars c.L A B sg q m R0 R1 (cscr c) := by
  refine ⟨vars c 4 (by omega), vars c 5 (by omega), vars c 6 (by omega), vars c 7 (by omega), cellV hc (i := 10) (by omega), cellV hc (i := 8) (by omega),
    cellV hc (i := 9) (by omega), by decide, by decide, by decide, by decide, ?_, ?_⟩
  · show sg ∉ callOnly nptr rs (args (.const 0)) scr; decide +kernel
  · show B + 348 ∉ callOnly nptr rs (args (.const 0)) scr; decide +kernel

omit hc in
/-- From what the code does to what the machine does. -/
theorem run_of (hc : c.Ok) {st : Stmt} {e : Nat} (hcode : Code c.L retAt 0 0 st e 0) (a b : W) {f g : W → W → W}
    (h : Wp c.L st (c.L.view (c.L.mem exBuf (vs a b))) fun o s' => o = .ret ∧ s' (R0 + 348) = f a b ∧ s' (R1 + 348) = g a b) :
    ∃ m', Reaches ⟨c.L.mem exBuf (vs a b), e⟩ ⟨m', retAt⟩ ∧ m' (R0 + 348) = f a b ∧ m' (R1 + 348) = g a b := by
  have h' := hl hc (v := vs a b) rfl
  obtain ⟨o, s', h1, rfl, h2, h3⟩ := Wp.runs h'.wf h hcode
  obtain ⟨m', hr, -, hv⟩ := h1 _ h'.ok.1 rfl
  simp only [R0, R1, ← hv, h'.exView (i := 8) (by simp [vs]), h'.exView (i := 9) (by simp [vs])] at h2 h3
  exact ⟨m', hr, h2, h3⟩

omit hc

/-- `f_div_floor` with a variable divisor -/
def cfgF : Cfg := ⟨.var B, [([], [aMem sg .set 0]), ([cMem (A + 348) .atLeast 0x80000000], aMem sg .add 1 :: inegA (A + 348)),
    ([cMem (B + 348) .atLeast 0x80000000], aMem sg .add 2 :: inegA (B + 348))],
  some ((.next chkAt B :: .vnext B ontAt :: ((chkActs (q + 348) (m + 348)).map QA.cell ++ [.dest B (epd (m + 348)), .modi B .add])).map QA.act, sdCondF sg (m + 348)),
  [(sdDiff sg, inegA (q + 348)), ([cMemX sg .exactly 2 2], inegA (m + 348))]⟩

theorem okF : cfgF.Ok := ⟨by decide +kernel, by decide +kernel, by decide +kernel, fun v h => by cases h; rfl, ⟨by decide +kernel, by simp [cfgF]⟩, by decide +kernel, by simp [cfgF]⟩

theorem chkF : AddIfCode cfgF.L chkAt B ontAt tailAt (sdCondF sg (m + 348)) (chkActs (q + 348) (m + 348)) (m + 348) :=
  ⟨by simp [Cfg.L, Cfg.chks, cfgF], by simp [Cfg.L, Cfg.chks, cfgF], by simp [Cfg.L, cfgF], vars _ 5 (by omega), by decide, by decide,
    placedCB_spec (by decide +kernel), placedAB_spec (by decide +kernel), cellV okF (i := 7) (by omega), by decide⟩

theorem codeF : Code cfgF.L retAt 0 0 (sdivF cfgF.L A B sg q m R0 R1 (call cfgF)) (trigAt 320) 0 :=
  .seq (head_code okF _ _ _) (.seq (.seq (chkF.code (hl0 okF).wf) (tail_code okF _ _ _)) (ret_code _ _ _))

/-- The machine divides with rounding down. -/
theorem runF (a b : W) (hb : b ≠ 0) : ∃ m', Reaches ⟨cfgF.L.mem exBuf (vs a b), trigAt 320⟩ ⟨m', retAt⟩ ∧
    m' (R0 + 348) = BitVec.ofInt 32 (a.toInt.fdiv b.toInt) ∧ m' (R1 + 348) = BitVec.ofInt 32 (a.toInt.fmod b.toInt) := by
  refine run_of okF codeF a b (f := fun a b => BitVec.ofInt 32 (a.toInt.fdiv b.toInt)) (g := fun a b => BitVec.ofInt 32 (a.toInt.fmod b.toInt)) ?_
  have ea := (hl okF (v := vs a b) rfl).exVal (i := 4) (by simp [vs]) []
  have eb := (hl okF (v := vs a b) rfl).exVal (i := 5) (by simp [vs]) []
  refine (C43_floor (hl0 okF).wf (sdvars okF) (dv okF) _ (by unfold B; rw [eb]; exact hb)).mono ?_
  rintro o s' ⟨h1, h2, h3, -⟩
  simp only [A, B, ea, eb] at h2 h3
  exact ⟨h1, h2, h3⟩

/-- -7 = -3 * 3 + 2 -/
example : ∃ m', Reaches ⟨cfgF.L.mem exBuf (vs (-7) 3), trigAt 320⟩ ⟨m', retAt⟩ ∧ m' (R0 + 348) = -3 ∧ m' (R1 + 348) = 2 := runF (-7) 3 (by decide)
example : ∃ m', Reaches ⟨cfgF.L.mem exBuf (vs 7 (-3)), trigAt 320⟩ ⟨m', retAt⟩ ∧ m' (R0 + 348) = -3 ∧ m' (R1 + 348) = -2 := runF 7 (-3) (by decide)

/-- `f_div_euclid` with a variable divisor -/
def cfgE : Cfg := ⟨.var B, cfgF.heads,
  some ((.next chkAt B :: .vnext B ontAt :: ((chkActs (q + 348) (m + 348)).map QA.cell ++ [.dest B (epd (m + 348)), .modi B .add])).map QA.act, sdCondE sg (m + 348)),
  [(sdDiff sg, inegA (q + 348))]⟩

theorem okE : cfgE.Ok := ⟨by decide +kernel, by decide +kernel, by decide +kernel, fun v h => by cases h; rfl, ⟨by decide +kernel, by simp [cfgE, cfgF]⟩, by decide +kernel, by simp [cfgE]⟩

theorem chkE : AddIfCode cfgE.L chkAt B ontAt tailAt (sdCondE sg (m + 348)) (chkActs (q + 348) (m + 348)) (m + 348) :=
  ⟨by simp [Cfg.L, Cfg.chks, cfgE], by simp [Cfg.L, Cfg.chks, cfgE], by simp [Cfg.L, cfgE], vars _ 5 (by omega), by decide, by decide,
    placedCB_spec (by decide +kernel), placedAB_spec (by decide +kernel), cellV okE (i := 7) (by omega), by decide⟩

theorem codeE : Code cfgE.L retAt 0 0 (sdivE cfgE.L A B sg q m R0 R1 (call cfgE)) (trigAt 320) 0 :=
  .seq (head_code okE _ _ _) (.seq (.seq (chkE.code (hl0 okE).wf) (tail_code okE _ _ _)) (ret_code _ _ _))

theorem runE (a b : W) (hb : b ≠ 0) : ∃ m', Reaches ⟨cfgE.L.mem exBuf (vs a b), trigAt 320⟩ ⟨m', retAt⟩ ∧
    m' (R0 + 348) = BitVec.ofInt 32 (a.toInt / b.toInt) ∧ m' (R1 + 348) = BitVec.ofInt 32 (a.toInt % b.toInt) := by
  refine run_of okE codeE a b (f := fun a b => BitVec.ofInt 32 (a.toInt / b.toInt)) (g := fun a b => BitVec.ofInt 32 (a.toInt % b.toInt)) ?_
  have ea := (hl okE (v := vs a b) rfl).exVal (i := 4) (by simp [vs]) []
  have eb := (hl okE (v := vs a b) rfl).exVal (i := 5) (by simp [vs]) []
  refine (C43_euclid (hl0 okE).wf (sdvars okE) (dv okE) _ (by unfold B; rw [eb]; exact hb)).mono ?_
  rintro o s' ⟨h1, h2, h3, -⟩
  simp only [A, B, ea, eb] at h2 h3
  exact ⟨h1, h2, h3⟩

example : ∃ m', Reaches ⟨cfgE.L.mem exBuf (vs (-7) (-3)), trigAt 320⟩ ⟨m', retAt⟩ ∧ m' (R0 + 348) = 3 ∧ m' (R1 + 348) = 2 := runE (-7) (-3) (by decide)

/-- `f_div_towards_zero` with a variable divisor -/
def cfgT : Cfg := ⟨.var B, cfgF.heads, none, [(sdDiff sg, inegA (q + 348)), ([cMemX sg .exactly 1 1], inegA (m + 348))]⟩

theorem okT : cfgT.Ok := ⟨by decide +kernel, by decide +kernel, by decide +kernel, fun v h => by cases h; rfl, ⟨by decide +kernel, by simp [cfgT, cfgF]⟩, by decide +kernel, by simp [cfgT]⟩

theorem codeT : Code cfgT.L retAt 0 0 (sdivTZ A B sg q m R0 R1 (call cfgT)) (trigAt 320) 0 :=
  .seq (head_code okT _ _ _) (.seq (tail_code okT _ _ _) (ret_code _ _ _))

theorem runT (a b : W) (hb : b ≠ 0) : ∃ m', Reaches ⟨cfgT.L.mem exBuf (vs a b), trigAt 320⟩ ⟨m', retAt⟩ ∧
    m' (R0 + 348) = BitVec.ofInt 32 (a.toInt.tdiv b.toInt) ∧ m' (R1 + 348) = BitVec.ofInt 32 (a.toInt.tmod b.toInt) := by
  refine run_of okT codeT a b (f := fun a b => BitVec.ofInt 32 (a.toInt.tdiv b.toInt)) (g := fun a b => BitVec.ofInt 32 (a.toInt.tmod b.toInt)) ?_
  have ea := (hl okT (v := vs a b) rfl).exVal (i := 4) (by simp [vs]) []
  have eb := (hl okT (v := vs a b) rfl).exVal (i := 5) (by simp [vs]) []
  refine (C43_towards_zero (hl0 okT).wf (sdvars okT) (dv okT) _ (by unfold B; rw [eb]; exact hb)).mono ?_
  rintro o s' ⟨h1, h2, h3, -⟩
  simp only [A, B, ea, eb] at h2 h3
  exact ⟨h1, h2, h3⟩

example : ∃ m', Reaches ⟨cfgT.L.mem exBuf (vs (-7) 3), trigAt 320⟩ ⟨m', retAt⟩ ∧ m' (R0 + 348) = -2 ∧ m' (R1 + 348) = -1 := runT (-7) 3 (by decide)
/-- The quotient of the smallest number by -1 does not fit and wraps around. -/
example : ∃ m', Reaches ⟨cfgT.L.mem exBuf (vs 0x80000000 (-1)), trigAt 320⟩ ⟨m', retAt⟩ ∧ m' (R0 + 348) = 0x80000000 ∧ m' (R1 + 348) = 0 :=
  runT 0x80000000 (-1) (by decide)

/-- `f_div_towards_zero` with the constant divisor `k` -/
def cfgK (k : Int) : Cfg := ⟨.const (BitVec.ofNat 32 k.natAbs), [([], [aMem sg .set (if k < 0 then 2 else 0)]),
  ([cMem (A + 348) .atLeast 0x80000000], aMem sg .add 1 :: inegA (A + 348))], none, cfgT.tails⟩

theorem codeK {k : Int} (h : (cfgK k).Ok) : Code (cfgK k).L retAt 0 0 (sdivTZC A sg q m R0 R1 k (call (cfgK k))) (trigAt 320) 0 :=
  .seq (head_code h _ _ _) (.seq (tail_code h _ _ _) (ret_code _ _ _))

theorem runK {k : Int} (h : (cfgK k).Ok) (h0 : k ≠ 0) (hlt : k.natAbs < 2 ^ 32) (a b : W) :
    ∃ m', Reaches ⟨(cfgK k).L.mem exBuf (vs a b), trigAt 320⟩ ⟨m', retAt⟩ ∧
    m' (R0 + 348) = BitVec.ofInt 32 (a.toInt.tdiv k) ∧ m' (R1 + 348) = BitVec.ofInt 32 (a.toInt.tmod k) := by
  refine run_of h (codeK h) a b (f := fun a b => BitVec.ofInt 32 (a.toInt.tdiv k)) (g := fun a b => BitVec.ofInt 32 (a.toInt.tmod k)) ?_
  have ea := (hl h (v := vs a b) rfl).exVal (i := 4) (by simp [vs]) []
  refine (C43_towards_zero_const (hl0 h).wf (sdvars h) h0 hlt (dv h) _).mono ?_
  rintro o s' ⟨h1, h2, h3, -⟩
  simp only [A, ea] at h2 h3
  exact ⟨h1, h2, h3⟩

theorem okK : (cfgK (-3)).Ok := ⟨by decide +kernel, by decide +kernel, by decide +kernel, fun v h => (by cases h), ⟨by decide +kernel, by simp [cfgK]⟩, by decide +kernel, by simp [cfgK, cfgT]⟩
example : ∃ m', Reaches ⟨(cfgK (-3)).L.mem exBuf (vs (-7) 0), trigAt 320⟩ ⟨m', retAt⟩ ∧ m' (R0 + 348) = 2 ∧ m' (R1 + 348) = -1 := runK okK (by decide) (by decide) (-7) 0

theorem okC : (cfgK 0xFFFFFFFE).Ok := ⟨by decide +kernel, by decide +kernel, by decide +kernel, fun v h => (by cases h), ⟨by decide +kernel, by simp [cfgK]⟩, by decide +kernel, by simp [cfgK, cfgT]⟩

/-- `f_div_floor` and `f_div_euclid` with the constant divisor `k` -/
def chkK (k : Int) : List PA := chkActs (q + 348) (m + 348) ++ [aMem (m + 348) .add (BitVec.ofNat 32 k.natAbs)]
def cfgKF (k : Int) : Cfg := ⟨.const (BitVec.ofNat 32 k.natAbs), (cfgK k).heads,
  some ((.next chkAt ontAt :: (chkK k).map QA.cell).map QA.act, sdCondF sg (m + 348)), cfgF.tails⟩
def cfgKE (k : Int) : Cfg := ⟨.const (BitVec.ofNat 32 k.natAbs), (cfgK k).heads,
  some ((.next chkAt ontAt :: (chkK k).map QA.cell).map QA.act, sdCondE sg (m + 348)), cfgE.tails⟩

theorem okKF : (cfgKF (-3)).Ok := ⟨by decide +kernel, by decide +kernel, by decide +kernel, fun v h => (by cases h), ⟨by decide +kernel, by simp [cfgKF, cfgK]⟩, by decide +kernel, by simp [cfgKF, cfgF]⟩
theorem okKE : (cfgKE (-3)).Ok := ⟨by decide +kernel, by decide +kernel, by decide +kernel, fun v h => (by cases h), ⟨by decide +kernel, by simp [cfgKE, cfgK]⟩, by decide +kernel, by simp [cfgKE, cfgE]⟩

theorem chkKF : DoIfCode (cfgKF (-3)).L chkAt ontAt tailAt (sdCondF sg (m + 348)) (chkK (-3)) :=
  ⟨by simp [Cfg.L, Cfg.chks, cfgKF], by simp [Cfg.L, Cfg.chks, cfgKF], by simp [Cfg.L, cfgKF], by decide, placedCB_spec (by decide +kernel), placedAB_spec (by decide +kernel)⟩
theorem chkKE : DoIfCode (cfgKE (-3)).L chkAt ontAt tailAt (sdCondE sg (m + 348)) (chkK (-3)) :=
  ⟨by simp [Cfg.L, Cfg.chks, cfgKE], by simp [Cfg.L, Cfg.chks, cfgKE], by simp [Cfg.L, cfgKE], by decide, placedCB_spec (by decide +kernel), placedAB_spec (by decide +kernel)⟩

theorem runKF (a b : W) : ∃ m', Reaches ⟨(cfgKF (-3)).L.mem exBuf (vs a b), trigAt 320⟩ ⟨m', retAt⟩ ∧
    m' (R0 + 348) = BitVec.ofInt 32 (a.toInt.fdiv (-3)) ∧ m' (R1 + 348) = BitVec.ofInt 32 (a.toInt.fmod (-3)) := by
  refine run_of okKF (.seq (head_code okKF _ _ _) (.seq (.seq (chkKF.code (hl0 okKF).wf) (tail_code okKF _ _ _)) (ret_code _ _ _))) a b
    (f := fun a b => BitVec.ofInt 32 (a.toInt.fdiv (-3))) (g := fun a b => BitVec.ofInt 32 (a.toInt.fmod (-3))) ?_
  have ea := (hl okKF (v := vs a b) rfl).exVal (i := 4) (by simp [vs]) []
  refine (C43_floor_const (k := -3) (hl0 okKF).wf (sdvars okKF) (by decide) (by decide) (dv okKF) _).mono ?_
  rintro o s' ⟨h1, h2, h3, -⟩
  simp only [A, ea] at h2 h3
  exact ⟨h1, h2, h3⟩

theorem runKE (a b : W) : ∃ m', Reaches ⟨(cfgKE (-3)).L.mem exBuf (vs a b), trigAt 320⟩ ⟨m', retAt⟩ ∧
    m' (R0 + 348) = BitVec.ofInt 32 (a.toInt / (-3)) ∧ m' (R1 + 348) = BitVec.ofInt 32 (a.toInt % (-3)) := by
  refine run_of okKE (.seq (head_code okKE _ _ _) (.seq (.seq (chkKE.code (hl0 okKE).wf) (tail_code okKE _ _ _)) (ret_code _ _ _))) a b
    (f := fun a b => BitVec.ofInt 32 (a.toInt / (-3))) (g := fun a b => BitVec.ofInt 32 (a.toInt % (-3))) ?_
  have ea := (hl okKE (v := vs a b) rfl).exVal (i := 4) (by simp [vs]) []
  refine (C43_euclid_const (k := -3) (hl0 okKE).wf (sdvars okKE) (by decide) (by decide) (dv okKE) _).mono ?_
  rintro o s' ⟨h1, h2, h3, -⟩
  simp only [A, ea] at h2 h3
  exact ⟨h1, h2, h3⟩

example : ∃ m', Reaches ⟨(cfgKF (-3)).L.mem exBuf (vs 7 0), trigAt 320⟩ ⟨m', retAt⟩ ∧ m' (R0 + 348) = -3 ∧ m' (R1 + 348) = -2 := runKF 7 0
example : ∃ m', Reaches ⟨(cfgKE (-3)).L.mem exBuf (vs (-7) 0), trigAt 320⟩ ⟨m', retAt⟩ ∧ m' (R0 + 348) = 3 ∧ m' (R1 + 348) = 2 := runKE (-7) 0

end ExSDiv

/-- **C43 (constants are not read as two's complement).** The dword -6 divided by the constant 0xFFFFFFFE, which as a dword is -2, gives 0 and not 3;
with the same divisor in a variable it gives 3. -/
theorem C43_counterexample_const :
    (∃ m', Reaches ⟨(ExSDiv.cfgK 0xFFFFFFFE).L.mem exBuf (ExSDiv.vs (-6) 0xFFFFFFFE), trigAt 320⟩ ⟨m', retAt⟩ ∧ m' (ExSDiv.R0 + 348) = 0) ∧
    (∃ m', Reaches ⟨ExSDiv.cfgT.L.mem exBuf (ExSDiv.vs (-6) 0xFFFFFFFE), trigAt 320⟩ ⟨m', retAt⟩ ∧ m' (ExSDiv.R0 + 348) = 3) := by
  refine ⟨?_, ?_⟩
  · obtain ⟨m', h1, h2, -⟩ := ExSDiv.runK ExSDiv.okC (by decide) (by decide) (-6) 0xFFFFFFFE
    exact ⟨m', h1, h2.trans (by decide)⟩
  · obtain ⟨m', h1, h2, -⟩ := ExSDiv.runT (-6) 0xFFFFFFFE (by decide)
    exact ⟨m', h1, h2.trans (by decide)⟩

end Eud.SC
