import Verif.Lib.MulDivFn
import Verif.Lib.ByteWrite
import Verif.Lib.DwBreak
/-
The random number generator of eudlib/utilf/random.py: `f_srand`, `f_getseed`, `f_rand` and `f_dwrand` (C56).  `f_randomize`, which asks the game for random switches, is not modelled.
-/

namespace Eud.SC

/-! ## Specification -/

/-- The linear congruential generator. -/
def lcg (x : W) : W := x * 1103515245 + 12345

/-- What a program does with the generator; `q` is the dword that gets the result. -/
inductive ROp
  | srand (x : Src) | getseed (q : Nat) | rand (q back : Nat) | dwrand (q back : Nat)

/-- The seed and the memory of the program. -/
structure RSt where
  seed : W
  mem : Mem

/-- `f_rand` gives the upper word of the next state, `f_dwrand` the upper words of the next two, the first one on top. -/
def ROp.spec (σ : RSt) : ROp → RSt
  | .srand x => ⟨x.valM σ.mem, σ.mem⟩
  | .getseed q => ⟨σ.seed, σ.mem.set q σ.seed⟩
  | .rand q _ => ⟨lcg σ.seed, σ.mem.set q (BitVec.ofNat 32 ((lcg σ.seed).toNat / 2 ^ 16))⟩
  | .dwrand q _ => ⟨lcg (lcg σ.seed), σ.mem.set q (BitVec.ofNat 32 ((lcg σ.seed).toNat / 2 ^ 16 * 2 ^ 16 + (lcg (lcg σ.seed)).toNat / 2 ^ 16))⟩

/-! ## Code -/

/-- Where everything is: the seed; result variable, end and return pointer of `f_rand` and of `f_dwrand`, whose local variable is `d`; parameter, result variable, temporary, end, return pointer and start of
`_const_mul(1103515245)`; where the three multiplications go on. -/
structure Rnd where
  (seed fr fend nptr dfr dfend dnptr d ma mr mt mfend mnptr mstart b1 b2 b3 : Nat)

namespace Rnd

variable (R : Rnd)

/-- muldiv.py:20-30, 148-217 `f_mul(x, 1103515245, ret=[q])`; the number is no power of two (`mulPow`), so there is a function for it. -/
def mul (L : Layout) (back : Nat) (x : Src) (q : Nat) : Stmt := .prim (CallRel L R.mfend R.mnptr back (mulFn R.ma R.mr R.mt 1103515245) [(R.mr, q)] [(R.ma + 348, x)])

/-- random.py:66-72 `f_rand`; the result variable of the function is used directly. -/
def randBody (L : Layout) : Stmt :=
  .seq (R.mul L R.b1 (.var R.seed) (R.seed + 348)) (.seq (.asg [⟨R.seed + 348, .add, .const 12345⟩, ⟨R.fr + 348, .set, .var R.seed⟩]) (iopS (R.fr + 348) (.shr 16)))

/-- random.py:91-95 -/
def low : List (Nat × List (Nat × W)) := (List.range 16).map fun j => (16 + j, [(R.d + 348, BitVec.ofNat 32 (2 ^ (j + 0)))])

/-- random.py:77-97 `f_dwrand` -/
def dwrandBody (L : Layout) : Stmt :=
  .seq (R.mul L R.b2 (.var R.seed) (R.d + 348)) (.seq (.asg [⟨R.d + 348, .add, .const 12345⟩]) (.seq (R.mul L R.b3 (.var R.d) (R.seed + 348))
    (.seq (.trig [] [aMem (R.seed + 348) .add 12345, aMemX (R.d + 348) .set 0 0xFFFF]) (.seq (.seqs (R.low.map (cBitTrig (R.seed + 348)))) (retVar R.dfr R.d)))))

/-- random.py:20-27 and the calls of the functions. -/
def stmt (L : Layout) : ROp → Stmt
  | .srand x => .asg [⟨R.seed + 348, .set, x⟩]
  | .getseed q => .asg [⟨q, .set, .var R.seed⟩]
  | .rand q back => .prim (CallRel L R.fend R.nptr back (R.randBody L) [(R.fr, q)] [])
  | .dwrand q back => .prim (CallRel L R.dfend R.dnptr back (R.dwrandBody L) [(R.dfr, q)] [])

/-- The dwords of the multiplication. -/
def mown : List Nat := [R.mnptr, R.mr + 4, R.mr + 344, R.ma + 348, R.mr + 348, R.mt + 348]

/-- All dwords of the generator. -/
def own : List Nat := [R.seed + 348, R.d + 348, R.fr + 348, R.dfr + 348, R.nptr, R.fr + 4, R.fr + 344, R.dnptr, R.dfr + 4, R.dfr + 344] ++ R.mown

structure Ok (L : Layout) : Prop where
  hs : R.seed ∈ L.P.vars
  hd : R.d ∈ L.P.vars
  cs : L.cell (R.seed + 348)
  cd : L.cell (R.d + 348)
  cf : L.cell (R.fr + 348)
  cg : L.cell (R.dfr + 348)
  ca : L.cell (R.ma + 348)
  cr : L.cell (R.mr + 348)
  nm : R.mt ≠ R.ma ∧ R.ma ≠ R.mr
  hF : FuncCode L R.mstart R.mfend R.mnptr [R.mr] (mulFn R.ma R.mr R.mt 1103515245)
  k1 : CallOk L R.mnptr [(R.mr, R.seed + 348)] [(R.ma + 348, .var R.seed)] [R.mr + 348, R.mt + 348]
  k2 : CallOk L R.mnptr [(R.mr, R.d + 348)] [(R.ma + 348, .var R.seed)] [R.mr + 348, R.mt + 348]
  k3 : CallOk L R.mnptr [(R.mr, R.seed + 348)] [(R.ma + 348, .var R.d)] [R.mr + 348, R.mt + 348]
  lb : R.b1 < 2 ^ 32 ∧ R.b2 < 2 ^ 32 ∧ R.b3 < 2 ^ 32
  nd : R.own.Nodup

variable {R}

theorem mul_does {L : Layout} (hw : L.Wf) (h : R.Ok L) {back q : Nat} {x : Src} (hb : back < 2 ^ 32) (hk : CallOk L R.mnptr [(R.mr, q)] [(R.ma + 348, x)] [R.mr + 348, R.mt + 348]) (s : Mem) :
    Does L (R.mul L back x q) s fun s' => s' q = x.valM s * 1103515245 ∧ Only (q :: R.mown) s s' := by
  refine Does.mono (fn1_call (f := fun x => x * BitVec.ofNat 32 1103515245) hw hk h.hF hb
    (mulFn_wp hw h.ca (fun h => absurd h (by decide)) (fun h => absurd h (by decide)) h.cr h.nm.1 h.nm.2) s) ?_
  rintro s' ⟨h1, h2⟩
  refine ⟨h1, h2.mono fun y hy => ?_⟩
  simp only [callOnly, mown, List.map_cons, List.map_nil, List.mem_cons, List.mem_append, List.not_mem_nil, or_false] at hy ⊢
  grind

theorem ne {L : Layout} (h : R.Ok L) : R.seed + 348 ∉ (R.d + 348) :: (R.fr + 348) :: (R.dfr + 348) :: R.mown ∧ R.d + 348 ∉ (R.fr + 348) :: (R.dfr + 348) :: R.mown ∧ R.fr + 348 ≠ R.dfr + 348 := by
  have := h.nd
  simp only [own, List.cons_append, List.nil_append, List.nodup_cons, List.mem_cons, not_or] at this
  simp only [List.mem_cons, not_or]
  grind

theorem ne4 {L : Layout} (h : R.Ok L) : R.seed + 348 ≠ R.fr + 4 ∧ R.seed + 348 ≠ R.dfr + 4 := by
  have := h.nd
  simp only [own, List.cons_append, List.nil_append, List.nodup_cons, List.mem_cons, not_or] at this
  grind

theorem rand_does {L : Layout} (hw : L.Wf) (h : R.Ok L) (s : Mem) :
    Does L (R.randBody L) s fun s' => (s' (R.seed + 348) = lcg (s (R.seed + 348)) ∧ s' (R.fr + 348) = BitVec.ofNat 32 ((lcg (s (R.seed + 348))).toNat / 2 ^ 16)) ∧
      Only ((R.seed + 348) :: (R.fr + 348) :: R.mown) s s' := by
  have hne := ne h
  simp only [List.mem_cons, not_or] at hne
  refine Does.seq (Does.mono (mul_does hw h h.lb.1 h.k1 s) ?_)
  rintro s1 ⟨h1, h2⟩
  refine Does.seq (Does.asg (by simpa using ⟨h.cs, h.cf⟩) (by simpa using h.hs) (Does.mono (iop_does (o := .shr 16) (by simp [IOp.Fits]) h.cf _) ?_))
  rintro s2 rfl
  simp only [runAsg_cons, runAsg_nil, Src.valM, arith, IOp.spec]
  have e1 : s1 (R.seed + 348) + 12345 = lcg (s (R.seed + 348)) := by rw [h1]; rfl
  refine ⟨⟨?_, ?_⟩, ?_⟩
  · simp only [get_set, if_neg hne.1.2.1, if_true, e1]
  · simp only [get_set, if_true, e1]
    apply BitVec.eq_of_toNat_eq
    rw [BitVec.toNat_ushiftRight, Nat.shiftRight_eq_div_pow, BitVec.toNat_ofNat, Nat.mod_eq_of_lt]
    have := (lcg (s (R.seed + 348))).isLt
    omega
  · exact (((h2.mono (by simp; grind)).set (by simp) _).set (by simp) _).set (by simp) _

/-- The two words do not overlap. -/
theorem hi_lo (x y : W) : modify .set x 0 0xFFFF + BitVec.ofNat 32 (y.toNat / 2 ^ 16 % 2 ^ 16 * 2 ^ 0) = BitVec.ofNat 32 (x.toNat / 2 ^ 16 * 2 ^ 16 + y.toNat / 2 ^ 16) := by
  have hx : modify .set x 0 0xFFFF = BitVec.ofNat 32 (x.toNat / 2 ^ 16 * 2 ^ 16) := by
    apply BitVec.eq_of_getLsbD_eq
    intro i hi
    rw [modify_bit_set _ _ _ _ hi]
    have e : BitVec.ofNat 32 (x.toNat / 2 ^ 16 * 2 ^ 16) = (x >>> 16) <<< 16 := by
      apply BitVec.eq_of_toNat_eq
      simp [Nat.shiftRight_eq_div_pow, Nat.shiftLeft_eq]
    rw [e]
    have hm : (0xFFFF : W).getLsbD i = decide (i < 16) := by
      have : ∀ i < 32, (0xFFFF : W).getLsbD i = decide (i < 16) := by decide
      exact this i hi
    simp only [hm, BitVec.getLsbD_shiftLeft, BitVec.getLsbD_ushiftRight, hi]
    by_cases h : i < 16
    · simp [h]
    · simp [h, show 16 + (i - 16) = i by omega]
  rw [hx, ← BitVec.ofNat_add]
  have := y.isLt
  congr 1
  omega

theorem dwrand_wp {L : Layout} (hw : L.Wf) (h : R.Ok L) (s : Mem) :
    Wp L (R.dwrandBody L) s fun o s' => (o = .nrm ∨ o = .ret) ∧ (s' (R.seed + 348) = lcg (lcg (s (R.seed + 348))) ∧
      s' (R.dfr + 348) = BitVec.ofNat 32 ((lcg (s (R.seed + 348))).toNat / 2 ^ 16 * 2 ^ 16 + (lcg (lcg (s (R.seed + 348)))).toNat / 2 ^ 16)) ∧
      Only ((R.seed + 348) :: (R.d + 348) :: (R.dfr + 348) :: R.mown) s s' := by
  have hne := ne h
  simp only [List.mem_cons, not_or] at hne
  refine Wp.seqN (Does.mono (mul_does hw h h.lb.2.1 h.k2 s) ?_)
  rintro s1 ⟨a1, a2⟩
  refine Wp.seqN (Does.asg (by simpa using h.cd) (by simp) ?_)
  simp only [runAsg_cons, runAsg_nil, Src.valM, arith]
  refine Wp.seqN (Does.mono (mul_does hw h h.lb.2.2 h.k3 _) ?_)
  rintro s2 ⟨b1, b2⟩
  simp only [Src.valM, set_eq, a1] at b1
  have hd2 : s2 (R.d + 348) = lcg (s (R.seed + 348)) := by
    rw [b2 _ (by simp; exact ⟨fun e => hne.1.1 (by omega), hne.2.1.2.2⟩), set_eq, a1]; rfl
  refine Wp.seqN (Does.acts (actsOk_mem h.cs (actsOk_memX h.cd trivial)) ?_)
  simp only [runPA_cons, runPA_nil, aMem_run, aMemX_run, arith]
  refine Wp.seqN (Does.mono (cbits_does h.cs R.low (by
    intro t ht
    simp only [low, List.mem_map, List.mem_range] at ht
    obtain ⟨j, hj, rfl⟩ := ht
    exact ⟨by omega, by simp only [List.mem_singleton, forall_eq]; exact ⟨h.cd, Ne.symm hne.1.1⟩⟩)) ?_)
  intro s3 h3
  have e1 : s2 (R.seed + 348) + 12345 = lcg (lcg (s (R.seed + 348))) := by rw [b1]; rfl
  have f1 : s3 (R.seed + 348) = lcg (lcg (s (R.seed + 348))) := by
    rw [h3, sumBitsC_none _ _ _ (by
      intro t ht
      simp only [low, List.mem_map, List.mem_range] at ht
      obtain ⟨j, -, rfl⟩ := ht
      simp only [sumC, if_neg (Ne.symm hne.1.1)]
      rfl)]
    simp only [get_set, if_neg hne.1.1, if_true, e1]
    simp
  have f2 : s3 (R.d + 348) = BitVec.ofNat 32 ((lcg (s (R.seed + 348))).toNat / 2 ^ 16 * 2 ^ 16 + (lcg (lcg (s (R.seed + 348)))).toNat / 2 ^ 16) := by
    rw [h3, low, sumBitsC_field _ _ 16 0 (fun j => [(R.d + 348, BitVec.ofNat 32 (2 ^ (j + 0)))]) _ (by intro j _; simp [sumC]), bitsum_shr _ (by decide)]
    simp only [get_set, if_neg hne.1.1, if_neg (Ne.symm hne.1.1), if_true, e1, hd2]
    exact hi_lo _ _
  have f3 : Only [R.seed + 348, R.d + 348] s2 s3 := by
    intro y hy
    simp only [List.mem_cons, List.not_mem_nil, or_false, not_or] at hy
    rw [h3, sumBitsC_none _ _ _ (by
      intro t ht
      simp only [low, List.mem_map, List.mem_range] at ht
      obtain ⟨j, -, rfl⟩ := ht
      simp [sumC, Ne.symm hy.2])]
    simp only [get_set, if_neg hy.1, if_neg hy.2]
    simp
  refine Wp.seqN (Does.asg (by simpa using h.cg) (by simpa using h.hd) (Wp.ret ⟨Or.inr rfl, ⟨?_, ?_⟩, ?_⟩))
  · simp only [runAsg_cons, runAsg_nil, arith, get_set, if_neg hne.1.2.2.1, f1]
  · simp only [runAsg_cons, runAsg_nil, arith, get_set, if_true, Src.valM, f2]
  · simp only [runAsg_cons, runAsg_nil, arith, Src.valM]
    refine Only.set ?_ (by simp) _
    exact (((a2.mono (by simp; grind)).set (by simp) _).trans (b2.mono (by simp; grind))).trans (f3.mono (by simp))

/-- A place for results: a dword outside the generator, known to the calls. -/
def OpOk (R : Rnd) (L : Layout) (op : ROp) : Prop :=
  match op with
  | .srand x => ∀ v, x = .var v → v ∈ L.P.vars ∧ v + 348 ∉ R.own
  | .getseed q => L.cell q ∧ q ∉ R.own
  | .rand q back => q ∉ R.own ∧ back < 2 ^ 32 ∧ CallOk L R.nptr [(R.fr, q)] [] ((R.seed + 348) :: (R.fr + 348) :: R.mown)
  | .dwrand q back => q ∉ R.own ∧ back < 2 ^ 32 ∧ CallOk L R.dnptr [(R.dfr, q)] [] ((R.seed + 348) :: (R.d + 348) :: (R.dfr + 348) :: R.mown)

/-- The memory holds the seed, and agrees with the memory of the program outside the generator. -/
def Rep (R : Rnd) (σ : RSt) (s : Mem) : Prop := s (R.seed + 348) = σ.seed ∧ ∀ y, y ∉ R.own → s y = σ.mem y

theorem op_does {L : Layout} (hw : L.Wf) (h : R.Ok L) {st dst : Nat} (hR : FuncCode L st R.fend R.nptr [R.fr] (R.randBody L)) (hD : FuncCode L dst R.dfend R.dnptr [R.dfr] (R.dwrandBody L))
    {op : ROp} (ho : R.OpOk L op) {σ : RSt} {s : Mem} (hr : R.Rep σ s) : Does L (R.stmt L op) s (R.Rep (op.spec σ)) := by
  have so : R.seed + 348 ∈ R.own := by simp [own]
  cases op with
  | srand x =>
    have ex : x.valM s = x.valM σ.mem := by
      cases x with
      | const _ => rfl
      | var v => exact hr.2 _ (ho v rfl).2
    refine Does.asg (by simpa using h.cs) (fun g hg v hv => ?_) ⟨?_, ?_⟩
    · simp only [List.mem_singleton] at hg
      subst hg
      exact (ho v hv).1
    · simp [runAsg, arith, set_eq, ex, ROp.spec]
    · intro y hy
      simp only [runAsg_cons, runAsg_nil, get_set, ROp.spec]
      rw [if_neg (fun e : y = _ => hy (e ▸ so))]
      exact hr.2 y hy
  | getseed q =>
    refine Does.asg (by simpa using ho.1) (by simpa using h.hs) ⟨?_, ?_⟩
    · simp only [runAsg_cons, runAsg_nil, get_set, ROp.spec]
      rw [if_neg (fun e : _ = q => ho.2 (e ▸ so))]
      exact hr.1
    · intro y hy
      simp only [runAsg_cons, runAsg_nil, get_set, ROp.spec, arith, Src.valM, hr.1]
      split
      · rfl
      · exact hr.2 y hy
  | rand q back =>
    obtain ⟨hq, hb, hk⟩ := ho
    refine Does.mono (C31_does hw hk hR hb (Q := fun s2 => s2 (R.seed + 348) = lcg σ.seed ∧ s2 (R.fr + 348) = BitVec.ofNat 32 ((lcg σ.seed).toNat / 2 ^ 16)) ?_) ?_
    · intro s1 _ h1
      have e : s1 (R.seed + 348) = σ.seed := by
        rw [h1 _ ?_, hr.1]
        intro hm
        simp only [List.map_cons, List.map_nil, List.mem_cons, List.mem_append, List.not_mem_nil, or_false] at hm
        rcases hm with e | e
        · exact hk.sn (by rw [← e]; simp)
        · exact hk.sr (R.fr, q) (by simp) (by simp only; rw [← e]; simp)
      refine Wp.mono (rand_does hw h s1).wp ?_
      rintro o s2 ⟨rfl, g1, g2⟩
      rw [e] at g1
      exact ⟨Or.inl rfl, g1, g2⟩
    · rintro s' ⟨⟨s2, ⟨g1, g2⟩, g3, g4⟩, g5⟩
      refine ⟨?_, fun y hy => ?_⟩
      · rw [g4 _ ?_, g1]; rfl
        intro hm
        simp only [List.map_cons, List.map_nil, List.mem_cons, List.mem_append, List.not_mem_nil, or_false] at hm
        rcases hm with e | e
        · exact hq (e ▸ so)
        · exact (ne4 h).1 e
      · simp only [ROp.spec, get_set]
        split
        · rename_i e; subst e; rw [g3 (R.fr, y) (by simp), g2]
        · rename_i e
          rw [g5 _ ?_, hr.2 y hy]
          intro hm
          simp only [callOnly, List.map_cons, List.map_nil, List.mem_cons, List.mem_append, List.not_mem_nil, or_false] at hm
          simp only [own, mown, List.mem_cons, List.mem_append, List.not_mem_nil, or_false] at hy hm
          grind
  | dwrand q back =>
    obtain ⟨hq, hb, hk⟩ := ho
    refine Does.mono (C31_does hw hk hD hb (Q := fun s2 => s2 (R.seed + 348) = lcg (lcg σ.seed) ∧ s2 (R.dfr + 348) = BitVec.ofNat 32 ((lcg σ.seed).toNat / 2 ^ 16 * 2 ^ 16 + (lcg (lcg σ.seed)).toNat / 2 ^ 16)) ?_) ?_
    · intro s1 _ h1
      have e : s1 (R.seed + 348) = σ.seed := by
        rw [h1 _ ?_, hr.1]
        intro hm
        simp only [List.map_cons, List.map_nil, List.mem_cons, List.mem_append, List.not_mem_nil, or_false] at hm
        rcases hm with e | e
        · exact hk.sn (by rw [← e]; simp)
        · exact hk.sr (R.dfr, q) (by simp) (by simp only; rw [← e]; simp)
      refine Wp.mono (dwrand_wp hw h s1) ?_
      rintro o s2 ⟨go, g1, g2⟩
      rw [e] at g1
      exact ⟨go, g1, g2⟩
    · rintro s' ⟨⟨s2, ⟨g1, g2⟩, g3, g4⟩, g5⟩
      refine ⟨?_, fun y hy => ?_⟩
      · rw [g4 _ ?_, g1]; rfl
        intro hm
        simp only [List.map_cons, List.map_nil, List.mem_cons, List.mem_append, List.not_mem_nil, or_false] at hm
        rcases hm with e | e
        · exact hq (e ▸ so)
        · exact (ne4 h).2 e
      · simp only [ROp.spec, get_set]
        split
        · rename_i e; subst e; rw [g3 (R.dfr, y) (by simp), g2]
        · rename_i e
          rw [g5 _ ?_, hr.2 y hy]
          intro hm
          simp only [callOnly, List.map_cons, List.map_nil, List.mem_cons, List.mem_append, List.not_mem_nil, or_false] at hm
          simp only [own, mown, List.mem_cons, List.mem_append, List.not_mem_nil, or_false] at hy hm
          grind

/-- **C56.** For every history of `f_srand`, `f_getseed`, `f_rand` and `f_dwrand`, whatever the seed: every result is the one of the generator that started at the current seed, the seed is the one after it, and nothing
else of the program changes. -/
theorem C56_history {L : Layout} (hw : L.Wf) (h : R.Ok L) {st dst : Nat} (hR : FuncCode L st R.fend R.nptr [R.fr] (R.randBody L)) (hD : FuncCode L dst R.dfend R.dnptr [R.dfr] (R.dwrandBody L)) :
    ∀ (ops : List ROp) {σ : RSt} {s : Mem}, (∀ op ∈ ops, R.OpOk L op) → R.Rep σ s → Does L (.seqs (ops.map (R.stmt L))) s (R.Rep (ops.foldl ROp.spec σ))
  | [], _, _, _, hr => Does.skip hr
  | op :: ops, _, _, ho, hr =>
    Does.seq (Does.mono (op_does hw h hR hD (ho op List.mem_cons_self) hr) fun _ h1 => C56_history hw h hR hD ops (fun o m => ho o (List.mem_cons_of_mem _ m)) h1)


end Rnd
end Eud.SC
