import Verif.Lib.MemWrite
import Verif.Lib.SelfAdd
/-
C34: writing bytes and words at a variable offset in a dword: `_bwriter`, `_badder`, `_bsubtracter`, `_wwriter`, `_wadder`, `_wsubtracter`, `_bitwrite_epd` (memio/bwepdio.py).
-/

namespace Eud.SC

/-! ## Shifting by a constant -/

/-- `st` puts `v << k` into `t`, as long as `I` holds. -/
def ShlTo (L : Layout) (I : Mem → Prop) (st : Stmt) (v k t : Nat) (scr : List Nat) : Prop :=
  ∀ s, I s → Does L st s fun s' => s' (t + 348) = s (v + 348) <<< k ∧ I s' ∧ Only ((t + 348) :: scr) s s'

theorem ShlTo.mono {L : Layout} {I : Mem → Prop} {st : Stmt} {v k t : Nat} {scr scr' : List Nat} (h : ShlTo L I st v k t scr) (hs : ∀ x ∈ scr, x ∈ scr') : ShlTo L I st v k t scr' :=
  fun s hi => Does.mono (h s hi) fun s' e => ⟨e.1, e.2.1, e.2.2.mono fun x hx => by
    rw [List.mem_cons] at hx ⊢
    exact hx.imp id (hs x)⟩

/-- bitwise.py:155-158: nothing is emitted for `a << 0` in place. -/
theorem ShlTo.zero {L : Layout} {I : Mem → Prop} (v : Nat) : ShlTo L I .skip v 0 v [] := fun s h => Does.skip ⟨by simp, h, Only.refl _ s⟩

/-- bitwise.py:191-194, vbase.py:115-129 -/
def shlHere (v k : Nat) : Stmt := .trig [] ((shlOps k).map fun c => aMemX (v + 348) c.1 c.2.1 c.2.2)
/-- bitwise.py:192: a copy first, if the result is another variable. -/
def shlCopy (v k t : Nat) : Stmt := .seq (.asg [⟨t + 348, .set, .var v⟩]) (shlHere t k)

theorem runPA_ops (a : Nat) : ∀ (l : List COp) (s : Mem), runPA (l.map fun c => aMemX a c.1 c.2.1 c.2.2) s = s.set a (l.foldl COp.run (s a))
  | [], s => by funext x; simp only [List.map_nil, runPA_nil, List.foldl_nil, get_set]; split <;> simp_all
  | c :: l, s => by
    rw [List.map_cons, runPA_cons, aMemX_run, runPA_ops a l]
    funext x
    simp only [get_set, if_true, List.foldl_cons, COp.run]
    split <;> rfl

theorem actsOk_ops {L : Layout} {a : Nat} (h : L.cell a) : ∀ (l : List COp) (s : Mem), ActsOk L (l.map fun c => aMemX a c.1 c.2.1 c.2.2) s
  | [], _ => trivial
  | _ :: l, _ => actsOk_memX h (actsOk_ops h l _)

theorem ShlTo.here {L : Layout} {I : Mem → Prop} {v k : Nat} (hv : L.cell (v + 348)) (hk : k ≤ 32) (hI : ∀ s s', Only [v + 348] s s' → I s → I s') : ShlTo L I (shlHere v k) v k v [] := by
  intro s h
  have o : Only [v + 348] s (s.set (v + 348) (s (v + 348) <<< k)) := (Only.refl _ s).set (by simp) _
  refine Does.acts (actsOk_ops hv _ s) ?_
  rw [runPA_ops, shlOps_spec hk]
  exact ⟨set_eq .., hI _ _ o h, o⟩

theorem ShlTo.copy {L : Layout} {I : Mem → Prop} {v k t : Nat} (hv : v ∈ L.P.vars) (ht : L.cell (t + 348)) (hk : k ≤ 32) (hI : ∀ s s', Only [t + 348] s s' → I s → I s') :
    ShlTo L I (shlCopy v k t) v k t [] := by
  intro s h
  have o : Only [t + 348] s (runAsg [⟨t + 348, .set, .var v⟩] s) := (Only.refl _ s).set (by simp) _
  refine Does.seq (Does.asg (by simpa using ht) (by simpa using hv) ?_)
  refine Does.mono (ShlTo.here ht hk hI _ (hI _ _ o h)) ?_
  rintro s' ⟨h1, h2, h3⟩
  refine ⟨?_, h2, o.trans h3⟩
  rw [h1]
  simp only [runAsg, set_eq, arith, Src.valM]

/-- bitwise.py:163-190 with a call of the function. -/
theorem ShlTo.call {L : Layout} (hw : L.Wf) {fend nptr fstart back ad p n v t : Nat} {ns : List Nat} (hv : PVar L ad) (he : EpdOK (ad + 348)) (hc : L.cell (t + 348))
    (ho : EpdOK (t + 348)) (hn : t + 348 ∉ selfScr ad) (hp : p + 20 ∉ selfScr ad) (hO : CallOk L nptr [] [(p + 20, .const (epd (t + 348))), (ad + 348, .var v)] ((t + 348) :: selfScr ad))
    (hF : FuncCode L fstart fend nptr [] (selfBody L ad p n ns)) (hback : back < 2 ^ 32) (hnp : nptr ∉ [ad + 344, ad + 352]) :
    ShlTo L (SelfInv ad) (.prim (CallRel L fend nptr back (selfBody L ad p n ns) [] [(p + 20, .const (epd (t + 348))), (ad + 348, .var v)])) v ns.length t (nptr :: (p + 20) :: selfScr ad) := by
  intro s hi
  refine Does.mono (C22_lshift_const hw hv he hc ho hn hp hO hF hback hi hnp) ?_
  rintro s' ⟨h1, h2, h3⟩
  exact ⟨h1, h2, h3.mono fun x hx => by simp only [List.mem_cons] at hx ⊢; grind⟩

/-! ## The writers -/

/-- bwepdio.py:34-39, 123-135, 210-214: case `i`; `sh` puts the shifted value into `t`, and the action is at `p`. -/
def wrCase (md : Mod) (nb : Nat) (sh : Stmt) (t p i : Nat) : Stmt :=
  .seq sh (.seq (.asg [⟨p + 20, .set, .var t⟩]) (.seq (.trig [] [aCpV md (byteMask nb i) p]) .brk))

/-- bwepdio.py:28-49, 118-140, 206-217: the body of a writer with the parameters `ev`, `sv` and the given cases. -/
def wrBody (L : Layout) (ev sv cpc n1 n2 : Nat) (cases : List (W × Stmt)) (tail : Stmt) : Stmt :=
  .seq (vproc L ev 0xFFFFFFFF n1 [aMem (ev + 344) .set (epd cpAddr)])
    (.seq (.prim (SwRel L (fun s => s (sv + 348)) cases)) (.seq (cpBack L cpc n2) tail))

/-- The cases `0` to `k - 1`. -/
def cases0 (k : Nat) (f : Nat → Stmt) : List (W × Stmt) := (List.range k).map fun i => (BitVec.ofNat 32 i, f i)

theorem cases0_lookup {k : Nat} (hk : k ≤ 2 ^ 32) (f : Nat → Stmt) (v : W) : (cases0 k f).lookup v = if v.toNat < k then some (f v.toNat) else none := by
  have hv := v.isLt
  have gen : ∀ (m a : Nat), a + m ≤ 2 ^ 32 → ((List.range' a m).map fun i => (BitVec.ofNat 32 i, f i)).lookup v = if a ≤ v.toNat ∧ v.toNat < a + m then some (f v.toNat) else none := by
    intro m
    induction m with
    | zero => intro a _; rw [if_neg (by omega)]; rfl
    | succ m ih =>
      intro a h
      rw [List.range'_succ, List.map_cons, List.lookup_cons]
      have e : (v == BitVec.ofNat 32 a) = decide (v.toNat = a) := by
        rw [Bool.eq_iff_iff, beq_iff_eq, decide_eq_true_iff, ← BitVec.toNat_inj, BitVec.toNat_ofNat, Nat.mod_eq_of_lt (by omega)]
      simp only [e]
      by_cases ha : v.toNat = a
      · simp only [ha, decide_true]
        rw [if_pos (by omega)]
      · simp only [ha, decide_false]
        rw [ih (a + 1) (by omega)]
        by_cases hh : a + 1 ≤ v.toNat ∧ v.toNat < a + 1 + m
        · rw [if_pos hh, if_pos (by omega)]
        · rw [if_neg hh, if_neg (by omega)]
  have := gen k 0 (by omega)
  rw [cases0, List.range_eq_range', this]
  by_cases h : v.toNat < k
  · rw [if_pos (by omega), if_pos h]
  · rw [if_neg (by omega), if_neg h]

/-- What one case does: the field of the dword at the current player is changed. -/
theorem wrCase_does {L : Layout} {I : Mem → Prop} {md : Mod} {nb i wv t p k : Nat} {sh : Stmt} {scr : List Nat} (hs : ShlTo L I sh wv k t scr) (ht : t ∈ L.P.vars) (hp : L.cell (p + 20))
    {s : Mem} (hi : I s) {A : Nat} (hA : A = epdAddr (s cpAddr)) (hcA : L.cell A) (hnA : A ∉ (p + 20) :: (t + 348) :: scr) (hcp : cpAddr ∉ (p + 20) :: (t + 348) :: scr) (hI : ∀ s s', Only [p + 20, A] s s' → I s → I s') :
    Wp L (wrCase md nb sh t p i) s fun o s' => o = .brk ∧ s' A = modify md (s A) (s (wv + 348) <<< k) (byteMask nb i) ∧ I s' ∧ Only (A :: (p + 20) :: (t + 348) :: scr) s s' := by
  unfold wrCase
  rw [List.mem_cons, not_or] at hnA hcp
  refine Wp.seqN (Does.mono (hs s hi) ?_)
  rintro s1 ⟨h1, h2, h3⟩
  refine Wp.seqN (Does.asg (by simpa using hp) (by simpa using ht) ?_)
  have e1 : runAsg [⟨p + 20, .set, .var t⟩] s1 = s1.set (p + 20) (s (wv + 348) <<< k) := by simp only [runAsg, arith, Src.valM, h1]
  rw [e1]
  have ec : (s1.set (p + 20) (s (wv + 348) <<< k)) cpAddr = s cpAddr := by rw [set_ne hcp.1, h3 _ hcp.2]
  have eA : (s1.set (p + 20) (s (wv + 348) <<< k)) A = s A := by rw [set_ne hnA.1, h3 _ hnA.2]
  refine Wp.seqN (Does.acts (actsOk_cpV (by rw [ec, ← hA]; exact hcA) trivial) ?_)
  rw [runPA_cons, runPA_nil, aCpV_run, ec, ← hA, eA, set_eq]
  refine Wp.brk ⟨rfl, set_eq .., ?_, ?_⟩
  · exact hI _ _ (((Only.refl _ s1).set (by simp) _).set (by simp) _) h2
  · refine Only.trans (h3.mono fun x hx => by simp only [List.mem_cons] at hx ⊢; grind) (((Only.refl _ s1).set (by simp) _).set (by simp) _)

/-- The dwords of the parameter `ev`, the current player and its cache that a writer changes. -/
def wrOwn (ev cpc : Nat) : List Nat := [ev + 4, ev + 344, cpAddr, cpc + 4, cpc + 344]

/-- The current player and its cache, and the parameter with the address. -/
structure WrVars (L : Layout) (ev cpc : Nat) : Prop where
  pe : PVar L ev
  pc : PVar L cpc
  cp : L.cell cpAddr
  ne : cpAddr ∉ [ev + 4, ev + 344, ev + 348, ev + 352, cpc + 4, cpc + 344, cpc + 348, cpc + 352]
  nc : cpc + 348 ∉ [ev + 4, ev + 344] ∧ cpc + 352 ∉ [ev + 4, ev + 344]

/-- The body of a writer, for any cases. -/
theorem wrBody_does {L : Layout} {ev sv cpc n1 n2 : Nat} (hv : WrVars L ev cpc) {cases : List (W × Stmt)} {tail : Stmt} {scr tscr : List Nat} {s : Mem}
    (hm : s (ev + 352) = pmod .set) (hmc : s (cpc + 352) = pmod .set) {Q : Mem → Prop}
    (hsw : ∀ s1, s1 cpAddr = s (ev + 348) → Only [ev + 4, ev + 344, cpAddr] s s1 → Does L (.prim (SwRel L (fun s => s (sv + 348)) cases)) s1 fun s2 => Q s2 ∧ Only scr s1 s2)
    (hsc : cpc + 348 ∉ scr ∧ cpc + 352 ∉ scr) (htl : ∀ s3, Wp L tail s3 fun o s' => (o = .nrm ∨ o = .ret) ∧ Only tscr s3 s') (htc : cpAddr ∉ tscr) :
    Wp L (wrBody L ev sv cpc n1 n2 cases tail) s fun o s' => (o = .nrm ∨ o = .ret) ∧ (∃ s2, Q s2 ∧ Only (cpBackScr cpc ++ tscr) s2 s') ∧ s' cpAddr = s (cpc + 348) ∧
      Only (wrOwn ev cpc ++ scr ++ tscr) s s' := by
  have hne := hv.ne
  have hnc := hv.nc
  simp only [List.mem_cons, List.not_mem_nil, or_false, not_or] at hne hnc
  unfold wrBody
  refine Wp.seqN (vproc_full (acts := [aMem (ev + 344) .set (epd cpAddr)]) (s := s) hv.pe (d := cpAddr) (md := .set) (actsOk_mem hv.pe.dst trivial) ?_ ?_ epdOK_cp hv.cp hne.1 ?_)
  · simp only [runPA_cons, runPA_nil, aMem_run, get_set]; rw [if_neg (by omega), hm]
  · simp only [runPA_cons, runPA_nil, aMem_run, get_set, if_true, arith]
  · simp only [runPA_cons, runPA_nil, aMem_run, arith]
    have o1 : Only [ev + 4, ev + 344, cpAddr] s (((s.set (ev + 344) (epd cpAddr)).set (ev + 4) (BitVec.ofNat 32 n1)).set cpAddr (s.set (ev + 344) (epd cpAddr) (ev + 348))) :=
      (((Only.refl _ s).set (by simp) _).set (by simp) _).set (by simp) _
    refine Wp.seqN (Does.mono (hsw _ (by rw [set_eq, set_ne (by omega)]) o1) ?_)
    generalize ((s.set (ev + 344) (epd cpAddr)).set (ev + 4) (BitVec.ofNat 32 n1)).set cpAddr (s.set (ev + 344) (epd cpAddr) (ev + 348)) = s1 at *
    rintro s2 ⟨q2, o2⟩
    have k1 : s2 (cpc + 348) = s (cpc + 348) := by rw [o2 _ hsc.1, o1 _ (by simp; omega)]
    have k2 : s2 (cpc + 352) = pmod .set := by rw [o2 _ hsc.2, o1 _ (by simp; omega), hmc]
    refine Wp.seqN (Does.mono (cpBack_does hv.pc hv.cp (by simp; omega) k2) ?_)
    rintro s3 ⟨c1, c2⟩
    refine Wp.mono (htl s3) ?_
    rintro o s4 ⟨t1, t2⟩
    refine ⟨t1, ⟨s2, q2, ?_⟩, ?_, ?_⟩
    · exact (c2.mono fun x hx => List.mem_append_left _ hx).trans (t2.mono fun x hx => List.mem_append_right _ hx)
    · rw [t2 _ htc, c1, k1]
    · refine Only.trans (s2 := s3) (Only.trans (s2 := s2) (Only.trans (s2 := s1) (o1.mono ?_) (o2.mono ?_)) (c2.mono ?_)) (t2.mono ?_) <;> intro x hx <;>
        simp only [wrOwn, cpBackScr, List.cons_append, List.nil_append, List.mem_cons, List.mem_append, List.not_mem_nil, or_false] at hx ⊢ <;> grind

/-- A call of a writer with three parameters, for any cases: case `j` establishes `R j`, which speaks about the dwords `As` only. -/
theorem writer_call {L : Layout} (hw : L.Wf) {fend nptr fstart back ev sv wv cpc n1 n2 k : Nat} {f : Nat → Stmt} {tail : Stmt} {rs : List (Nat × Nat)}
    {e i x : Src} {I : Mem → Prop} {As scr tscr : List Nat} {R : Nat → Mem → Prop} (hk : k ≤ 2 ^ 32) (hv : WrVars L ev cpc) {s : Mem}
    (hcase : ∀ j < k, j = (i.valM s).toNat → ∀ s2, I s2 → s2 cpAddr = e.valM s → (∀ A ∈ As, s2 A = s A) → s2 (wv + 348) = x.valM s → Wp L (f j) s2 fun o s' => o = .brk ∧ R j s' ∧ I s' ∧ Only (As ++ scr) s2 s')
    (hR : ∀ j b b', (∀ A ∈ As, b' A = b A) → R j b → R j b')
    (htl : ∀ s3, Wp L tail s3 fun o s' => (o = .nrm ∨ o = .ret) ∧ Only tscr s3 s')
    (hO : CallOk L nptr rs [(ev + 348, e), (sv + 348, i), (wv + 348, x)] (As ++ wrOwn ev cpc ++ scr ++ tscr))
    (hF : FuncCode L fstart fend nptr (rs.map Prod.fst) (wrBody L ev sv cpc n1 n2 (cases0 k f) tail)) (hback : back < 2 ^ 32)
    (hm : s (ev + 352) = pmod .set) (hmc : s (cpc + 352) = pmod .set) (hi : I s)
    (hI : ∀ s s', Only (callOnly nptr rs [(ev + 348, e), (sv + 348, i), (wv + 348, x)] (wrOwn ev cpc ++ tscr)) s s' → I s → I s')
    (hnA : ∀ A ∈ As, A ∉ callOnly nptr rs [(ev + 348, e), (sv + 348, i), (wv + 348, x)] (wrOwn ev cpc ++ scr ++ tscr))
    (hcp : cpAddr ∉ callOnly nptr rs [(ev + 348, e), (sv + 348, i), (wv + 348, x)] (scr ++ tscr))
    (hcc : ∀ y ∈ [cpc + 348, cpc + 352], y ∉ callOnly nptr rs [(ev + 348, e), (sv + 348, i), (wv + 348, x)] (As ++ scr))
    (hee : ev + 352 ∉ callOnly nptr rs [(ev + 348, e), (sv + 348, i), (wv + 348, x)] []) (hsv : sv + 348 ∉ [ev + 4, ev + 344, cpAddr]) (hwv : wv + 348 ∉ [ev + 4, ev + 344, cpAddr]) :
    Does L (.prim (CallRel L fend nptr back (wrBody L ev sv cpc n1 n2 (cases0 k f) tail) rs [(ev + 348, e), (sv + 348, i), (wv + 348, x)])) s fun s' =>
      (if (i.valM s).toNat < k then R (i.valM s).toNat s' else ∀ A ∈ As, s' A = s A) ∧ s' cpAddr = s (cpc + 348) ∧ I s' ∧
        Only (callOnly nptr rs [(ev + 348, e), (sv + 348, i), (wv + 348, x)] (As ++ wrOwn ev cpc ++ scr ++ tscr)) s s' := by
  have hne := hv.ne
  have hnc := hv.nc
  simp only [List.mem_cons, List.not_mem_nil, or_false, not_or] at hne hnc
  have hR' : ∀ (b b' : Mem), (∀ A ∈ As, b' A = b A) → (if (i.valM s).toNat < k then R (i.valM s).toNat b else ∀ A ∈ As, b A = s A) →
      (if (i.valM s).toNat < k then R (i.valM s).toNat b' else ∀ A ∈ As, b' A = s A) := by
    intro b b' h
    split
    · exact hR _ _ _ h
    · exact fun g A hA => (h A hA).trans (g A hA)
  refine Does.mono (C31_does hw hO hF hback (Q := fun s2 => (if (i.valM s).toNat < k then R (i.valM s).toNat s2 else ∀ A ∈ As, s2 A = s A) ∧
    s2 cpAddr = s (cpc + 348) ∧ I s2) ?_) ?_
  · intro s1 a1 o1
    have b1 : s1 (ev + 348) = e.valM s := a1 (ev + 348, e) (by simp)
    have b2 : s1 (sv + 348) = i.valM s := a1 (sv + 348, i) (by simp)
    have b3 : s1 (wv + 348) = x.valM s := a1 (wv + 348, x) (by simp)
    have hI1 : I s1 := hI _ _ (o1.mono fun y hy => by
      simp only [callOnly, List.map_cons, List.map_nil, List.mem_cons, List.mem_append] at hy ⊢; grind) hi
    have eA : ∀ A ∈ As, s1 A = s A := fun A hA => o1 _ fun hy => hnA A hA (by simp only [callOnly, List.map_cons, List.map_nil, List.mem_cons, List.mem_append] at hy ⊢; grind)
    have ec : ∀ y ∈ [cpc + 348, cpc + 352], s1 y = s y := fun y hy => o1 _ fun hy' => hcc y hy (by
      simp only [callOnly, List.map_cons, List.map_nil, List.mem_cons, List.mem_append] at hy' ⊢; grind)
    have ee : s1 (ev + 352) = s (ev + 352) := o1 _ fun hy => hee (by simp only [callOnly, List.map_cons, List.map_nil, List.mem_cons, List.mem_append] at hy ⊢; grind)
    refine Wp.mono (wrBody_does hv (scr := As ++ scr) (tscr := tscr) (s := s1) (by rw [ee, hm]) (by rw [ec _ (by simp), hmc])
      (Q := fun s2 => (if (i.valM s).toNat < k then R (i.valM s).toNat s2 else ∀ A ∈ As, s2 A = s A) ∧ I s2) ?_ ?_ htl ?_) ?_
    · intro s2 c1 o2
      have eA2 : ∀ A ∈ As, s2 A = s A := by
        intro A hA
        rw [o2 _ fun hy => hnA A hA ?_, eA A hA]
        simp only [callOnly, wrOwn, List.map_cons, List.map_nil, List.mem_cons, List.mem_append, List.not_mem_nil, or_false] at hy ⊢; grind
      have hI2 : I s2 := hI _ _ (o2.mono fun y hy => by
        simp only [callOnly, wrOwn, List.map_cons, List.map_nil, List.mem_cons, List.mem_append, List.not_mem_nil, or_false] at hy ⊢; grind) hI1
      have d2 : s2 (sv + 348) = i.valM s := by rw [o2 _ hsv, b2]
      have d3 : s2 (wv + 348) = x.valM s := by rw [o2 _ hwv, b3]
      refine Does.sw ?_ ?_
      · intro hl
        simp only [d2] at hl
        rw [cases0_lookup hk] at hl
        split at hl
        · cases hl
        · rename_i hh
          exact ⟨⟨by rw [if_neg hh]; exact eA2, hI2⟩, Only.refl _ s2⟩
      · intro st hl
        simp only [d2] at hl
        rw [cases0_lookup hk] at hl
        split at hl
        · rename_i hh
          cases hl
          refine Wp.mono (hcase _ hh rfl s2 hI2 (c1.trans b1) eA2 d3) ?_
          rintro o s3 ⟨rfl, f1, f2, f3⟩
          exact ⟨rfl, ⟨by rw [if_pos hh]; exact f1, f2⟩, f3⟩
        · cases hl
    · have g : ∀ y ∈ [cpc + 348, cpc + 352], y ∉ As ++ scr := fun y hy h => hcc y hy (by
        simp only [callOnly, List.mem_cons, List.mem_append] at h ⊢; grind)
      exact ⟨g _ (by simp), g _ (by simp)⟩
    · intro hy; exact hcp (by simp only [callOnly, List.mem_cons, List.mem_append]; grind)
    · rintro o s2 ⟨h1, ⟨s3, ⟨q1, q2⟩, o3⟩, h3, h4⟩
      refine ⟨h1, ⟨?_, ?_, ?_⟩, h4.mono fun y hy => ?_⟩
      · refine hR' _ _ (fun A hA => o3 _ fun hy => hnA A hA ?_) q1
        simp only [callOnly, wrOwn, cpBackScr, List.mem_cons, List.mem_append, List.not_mem_nil, or_false] at hy ⊢; grind
      · rw [h3, ec _ (by simp)]
      · exact hI _ _ (o3.mono fun y hy => by
          simp only [callOnly, wrOwn, cpBackScr, List.mem_cons, List.mem_append, List.not_mem_nil, or_false] at hy ⊢; grind) q2
      · simp only [List.mem_append] at hy ⊢; grind
  · rintro s' ⟨⟨s2, ⟨q1, q2, q3⟩, -, o2⟩, o3⟩
    refine ⟨?_, ?_, ?_, o3⟩
    · refine hR' _ _ (fun A hA => o2 _ fun hy => hnA A hA ?_) q1
      simp only [callOnly, List.mem_cons, List.mem_append] at hy ⊢; grind
    · rw [o2 _ fun hy => hcp ?_, q2]
      simp only [callOnly, List.mem_cons, List.mem_append] at hy ⊢; grind
    · exact hI _ _ (o2.mono fun y hy => by simp only [callOnly, List.mem_cons, List.mem_append] at hy ⊢; grind) q3

/-- What all the writers need besides their cases: `As` are the dwords written, `scr` those used by the cases, `tscr` the result. -/
structure WrHyp (L : Layout) (nptr ev sv wv cpc : Nat) (rs : List (Nat × Nat)) (e i x : Src) (As scr tscr : List Nat) (s : Mem) : Prop where
  ok : CallOk L nptr rs [(ev + 348, e), (sv + 348, i), (wv + 348, x)] (As ++ wrOwn ev cpc ++ scr ++ tscr)
  vars : WrVars L ev cpc
  me : s (ev + 352) = pmod .set
  mc : s (cpc + 352) = pmod .set
  nA : ∀ A ∈ As, L.cell A ∧ A ∉ callOnly nptr rs [(ev + 348, e), (sv + 348, i), (wv + 348, x)] (wrOwn ev cpc ++ scr ++ tscr)
  cp : cpAddr ∉ callOnly nptr rs [(ev + 348, e), (sv + 348, i), (wv + 348, x)] (scr ++ tscr)
  cc : ∀ y ∈ [cpc + 348, cpc + 352], y ∉ callOnly nptr rs [(ev + 348, e), (sv + 348, i), (wv + 348, x)] (As ++ scr)
  ee : ev + 352 ∉ callOnly nptr rs [(ev + 348, e), (sv + 348, i), (wv + 348, x)] []
  sv : sv + 348 ∉ [ev + 4, ev + 344, cpAddr]
  wv : wv + 348 ∉ [ev + 4, ev + 344, cpAddr]

/-- **C34, bytes and words at a variable offset**: `f_bwrite_epd`, `f_badd_epd`, `f_bsubtract_epd` (`nb = 1`, `k = 4`), `f_wadd_epd`, `f_wsubtract_epd` (`nb = 2`, `k = 3`).
The field is changed as a number of its own width, and all other bits are kept; if the offset has no case, nothing is written.  The current player is restored from its cache. -/
theorem C34_bytes {L : Layout} (hw : L.Wf) {fend nptr fstart back ev sv wv cpc n1 n2 nb k : Nat} {md : Mod} {sh : Nat → Stmt} {t p : Nat → Nat} {tail : Stmt} {rs : List (Nat × Nat)}
    {e i x : Src} {I : Mem → Prop} {scr tscr : List Nat} (hk : k + nb ≤ 5)
    (hsh : ∀ j < k, ShlTo L I (sh j) wv (8 * j) (t j) scr ∧ t j ∈ L.P.vars ∧ L.cell (p j + 20) ∧ p j + 20 ∈ scr ∧ t j + 348 ∈ scr)
    (htl : ∀ s3, Wp L tail s3 fun o s' => (o = .nrm ∨ o = .ret) ∧ Only tscr s3 s') {s : Mem}
    (hh : WrHyp L nptr ev sv wv cpc rs e i x [epdAddr (e.valM s)] scr tscr s)
    (hF : FuncCode L fstart fend nptr (rs.map Prod.fst) (wrBody L ev sv cpc n1 n2 (cases0 k fun j => wrCase md nb (sh j) (t j) (p j) j) tail)) (hback : back < 2 ^ 32) (hi : I s)
    (hI : ∀ s1 s', Only (callOnly nptr rs [(ev + 348, e), (sv + 348, i), (wv + 348, x)] (epdAddr (e.valM s) :: wrOwn ev cpc ++ tscr ++ (List.range k).map fun j => p j + 20)) s1 s' → I s1 → I s') :
    Does L (.prim (CallRel L fend nptr back (wrBody L ev sv cpc n1 n2 (cases0 k fun j => wrCase md nb (sh j) (t j) (p j) j) tail) rs [(ev + 348, e), (sv + 348, i), (wv + 348, x)])) s fun s' =>
      (if (i.valM s).toNat < k then FieldOp md nb (i.valM s).toNat (x.valM s) (s (epdAddr (e.valM s))) (s' (epdAddr (e.valM s)))
        else s' (epdAddr (e.valM s)) = s (epdAddr (e.valM s))) ∧ s' cpAddr = s (cpc + 348) ∧ I s' ∧
        Only (callOnly nptr rs [(ev + 348, e), (sv + 348, i), (wv + 348, x)] (epdAddr (e.valM s) :: wrOwn ev cpc ++ scr ++ tscr)) s s' := by
  obtain ⟨hcA, hnA⟩ := hh.nA _ (List.mem_singleton.2 rfl)
  generalize hA : epdAddr (e.valM s) = A at *
  have hcp := hh.cp
  refine Does.mono (writer_call hw (I := I) (As := [A]) (scr := scr) (tscr := tscr) (R := fun j s' => FieldOp md nb j (x.valM s) (s A) (s' A)) (by omega) hh.vars ?_ ?_ htl hh.ok hF hback hh.me hh.mc hi
    (fun a b hab => hI a b (hab.mono fun y hy => ?_)) (fun A hA => (hh.nA A hA).2) hcp hh.cc hh.ee hh.sv hh.wv) ?_
  · intro j hj _ s2 hI2 c1 eA d3
    obtain ⟨g1, g2, g3, g4, g5⟩ := hsh _ hj
    have sub : ∀ y ∈ (p j + 20) :: (t j + 348) :: scr, y ∈ scr := by
      intro y hy
      simp only [List.mem_cons] at hy
      rcases hy with rfl | rfl | hy
      · exact g4
      · exact g5
      · exact hy
    have hpj : p j + 20 ∈ (List.range k).map fun j => p j + 20 := List.mem_map.2 ⟨j, List.mem_range.2 hj, rfl⟩
    refine Wp.mono (wrCase_does (md := md) (nb := nb) (i := j) g1 g2 g3 hI2 (A := A) (by rw [c1, hA]) hcA
      (fun hy => hnA ?_) (fun hy => hcp ?_) (fun a b hab => hI a b (hab.mono fun y hy => ?_))) ?_
    · have := sub _ hy
      simp only [callOnly, List.mem_cons, List.mem_append]; grind
    · have := sub _ hy
      simp only [callOnly, List.mem_cons, List.mem_append]; grind
    · simp only [callOnly, List.mem_cons, List.mem_append, List.not_mem_nil, or_false] at hy ⊢
      rcases hy with rfl | rfl
      · grind
      · grind
    · rintro o s3 ⟨rfl, f1, f2, f3⟩
      refine ⟨rfl, ?_, f2, f3.mono fun y hy => ?_⟩
      · rw [f1, eA A (by simp), d3]
        exact field_op md _ _ (by omega)
      · simp only [List.mem_cons, List.singleton_append] at hy ⊢
        have := sub y
        grind
  · intro j b b' h; simp only [h A (by simp)]; exact id
  · simp only [callOnly, List.mem_cons, List.mem_append, List.cons_append] at hy ⊢; grind
  · rintro s' ⟨h1, h2, h3, h4⟩
    exact ⟨by simpa using h1, h2, h3, h4.mono fun y hy => by simpa using hy⟩

/-- bwepdio.py:140, eudfuncn.py:157-166: `return b` -/
def retVar (fr b : Nat) : Stmt := .seq (.asg [⟨fr + 348, .set, .var b⟩]) .ret

theorem retVar_wp {L : Layout} {fr b : Nat} (hf : L.cell (fr + 348)) (hb : b ∈ L.P.vars) (s : Mem) : Wp L (retVar fr b) s fun o s' => (o = .nrm ∨ o = .ret) ∧ Only [fr + 348] s s' :=
  Wp.seqN (Does.asg (by simpa using hf) (by simpa using hb) (Wp.ret ⟨Or.inr rfl, (Only.refl _ s).set (by simp) _⟩))

theorem skip_wp {L : Layout} (s : Mem) : Wp L .skip s fun o s' => (o = .nrm ∨ o = .ret) ∧ Only [] s s' := ⟨.nrm, s, .skip s, Or.inl rfl, Only.refl _ s⟩

/-! ## Single bits -/

/-- bwepdio.py:185-196: case `i` of the writer of the bit `1 << q`. -/
def bitCase (bv q i : Nat) : Stmt :=
  .seq (.trig [] [aCp .set 0 (pow2 (q + 8 * i))]) (.seq (.trig [cMem (bv + 348) .atLeast 1] [aCp .set (pow2 (q + 8 * i)) (pow2 (q + 8 * i))]) .brk)

/-- `w'` is `w` with bit `q` set to `b`. -/
def BitOp (q : Nat) (b : Bool) (w w' : W) : Prop := ∀ j < 32, w'.getLsbD j = if j = q then b else w.getLsbD j

theorem bit_clear (w : W) (q : Nat) : BitOp q false w (modify .set w 0 (pow2 q)) := by
  intro j hj
  rw [modify_bit_set _ _ _ _ hj, pow2, BitVec.getLsbD_twoPow]
  by_cases h : j = q
  · subst h; simp [hj]
  · rw [if_neg h, if_neg]; simp; omega

theorem bit_set (w : W) (q : Nat) : BitOp q true w (modify .set w (pow2 q) (pow2 q)) := by
  intro j hj
  rw [modify_bit_set _ _ _ _ hj, pow2, BitVec.getLsbD_twoPow]
  by_cases h : j = q
  · subst h; simp [hj]
  · rw [if_neg h, if_neg]; simp; omega

theorem BitOp.trans {q : Nat} {a b : Bool} {w w1 w2 : W} (h1 : BitOp q a w w1) (h2 : BitOp q b w1 w2) : BitOp q b w w2 := by
  intro j hj
  rw [h2 j hj]
  split
  · rfl
  · rename_i h; rw [h1 j hj, if_neg h]

theorem atLeast_one (w : W) : compare .atLeast w 1 = decide (w ≠ 0) := by
  simp only [compare, BitVec.le_def, decide_eq_decide, ne_eq, ← BitVec.toNat_inj]
  have : (1 : W).toNat = 1 := rfl
  have : (0 : W).toNat = 0 := rfl
  omega

theorem bitCase_does {L : Layout} {bv q i : Nat} (hb : L.cell (bv + 348)) {s : Mem} {A : Nat} (hA : A = epdAddr (s cpAddr)) (hcA : L.cell A) (hnA : A ∉ [cpAddr, bv + 348]) :
    Wp L (bitCase bv q i) s fun o s' => o = .brk ∧ BitOp (q + 8 * i) (decide (s (bv + 348) ≠ 0)) (s A) (s' A) ∧ Only [A] s s' := by
  simp only [List.mem_cons, List.not_mem_nil, or_false, not_or] at hnA
  unfold bitCase
  refine Wp.seqN (Does.acts (actsOk_cp (by rw [← hA]; exact hcA) trivial) ?_)
  rw [runPA_cons, runPA_nil, aCp_run, ← hA]
  generalize hw1 : modify .set (s A) 0 (pow2 (q + 8 * i)) = w1
  have c1 : BitOp (q + 8 * i) false (s A) w1 := hw1 ▸ bit_clear _ _
  have ec : (s.set A w1) cpAddr = s cpAddr := set_ne (Ne.symm hnA.1)
  have ev : (s.set A w1) (bv + 348) = s (bv + 348) := set_ne (Ne.symm hnA.2)
  have o1 : Only [A] s (s.set A w1) := (Only.refl _ s).set (by simp) _
  refine Wp.seqN (Does.trig (by simpa using cMem_ok hb _ _ _) (fun hh => ⟨actsOk_cp (by rw [ec, ← hA]; exact hcA) trivial, ?_⟩) (fun hh => ?_))
  · simp only [holdsAll_cons, holdsAll_nil, Bool.and_true, cMem_holds, ev, atLeast_one] at hh
    rw [runPA_cons, runPA_nil, aCp_run, ec, ← hA, set_eq, hh]
    refine Wp.brk ⟨rfl, ?_, o1.set (by simp) _⟩
    rw [set_eq]
    exact c1.trans (bit_set _ _)
  · simp only [holdsAll_cons, holdsAll_nil, Bool.and_true, cMem_holds, ev, atLeast_one] at hh
    rw [hh]
    exact Wp.brk ⟨rfl, by rw [set_eq]; exact c1, o1⟩

/-- **C34, single bits** (`_bitwrite_epd` with a variable offset): the bit `q` of the byte at the offset becomes 1 for a nonzero value and 0 for zero; all other bits are kept. -/
theorem C34_bit {L : Layout} (hw : L.Wf) {fend nptr fstart back ev sv bv cpc n1 n2 q : Nat} {tail : Stmt} {rs : List (Nat × Nat)} {e i x : Src} {tscr : List Nat}
    (htl : ∀ s3, Wp L tail s3 fun o s' => (o = .nrm ∨ o = .ret) ∧ Only tscr s3 s') {s : Mem} (hb : L.cell (bv + 348)) (hh : WrHyp L nptr ev sv bv cpc rs e i x [epdAddr (e.valM s)] [] tscr s)
    (hF : FuncCode L fstart fend nptr (rs.map Prod.fst) (wrBody L ev sv cpc n1 n2 (cases0 4 (bitCase bv q)) tail)) (hback : back < 2 ^ 32) :
    Does L (.prim (CallRel L fend nptr back (wrBody L ev sv cpc n1 n2 (cases0 4 (bitCase bv q)) tail) rs [(ev + 348, e), (sv + 348, i), (bv + 348, x)])) s fun s' =>
      (if (i.valM s).toNat < 4 then BitOp (q + 8 * (i.valM s).toNat) (decide (x.valM s ≠ 0)) (s (epdAddr (e.valM s))) (s' (epdAddr (e.valM s)))
        else s' (epdAddr (e.valM s)) = s (epdAddr (e.valM s))) ∧ s' cpAddr = s (cpc + 348) ∧
        Only (callOnly nptr rs [(ev + 348, e), (sv + 348, i), (bv + 348, x)] (epdAddr (e.valM s) :: wrOwn ev cpc ++ tscr)) s s' := by
  obtain ⟨hcA, hnA⟩ := hh.nA _ (List.mem_singleton.2 rfl)
  generalize hA : epdAddr (e.valM s) = A at *
  refine Does.mono (writer_call hw (I := fun _ => True) (As := [A]) (scr := []) (tscr := tscr) (R := fun j s' => BitOp (q + 8 * j) (decide (x.valM s ≠ 0)) (s A) (s' A)) (by omega) hh.vars ?_ ?_ htl hh.ok
    hF hback hh.me hh.mc trivial (fun _ _ _ _ => trivial) (fun A hA => (hh.nA A hA).2) hh.cp hh.cc hh.ee hh.sv hh.wv) ?_
  · intro j hj _ s2 _ c1 eA d3
    refine Wp.mono (bitCase_does (q := q) (i := j) hb (A := A) (by rw [c1, hA]) hcA ?_) ?_
    · intro h
      refine hnA ?_
      simp only [callOnly, wrOwn, List.map_cons, List.map_nil, List.mem_cons, List.mem_append, List.not_mem_nil, or_false] at h ⊢; grind
    · rintro o s' ⟨rfl, g1, g2⟩
      rw [d3, eA A (by simp)] at g1
      exact ⟨rfl, g1, trivial, g2⟩
  · intro j b b' h; simp only [h A (by simp)]; exact id
  · rintro s' ⟨h1, h2, -, h4⟩
    exact ⟨by simpa using h1, h2, h4.mono fun y hy => by simpa using hy⟩

/-! ## Constant offsets -/

/-- **C34, constant offset and value** (bwepdio.py:52-61, 143-149, ..): `DoActions(SetDeathsX(e, md, x << 8 * i, 0, mask))` changes the field; the address may be a variable. -/
theorem C34_bytes_const {L : Layout} {p nb i : Nat} {md : Mod} {e : Src} (x : W) (hi : i + nb ≤ 4) (he : SrcOk L p 16 e)
    {s : Mem} (hpl : PlainEpd (e.valM s)) (hc : L.cell (epdAddr (e.valM s))) (hn : epdAddr (e.valM s) ∉ [p, p + 16, p + 20]) :
    Does L (setdwx p md e (.const (x <<< (8 * i))) (.const (byteMask nb i))) s fun s' =>
      FieldOp md nb i x (s (epdAddr (e.valM s))) (s' (epdAddr (e.valM s))) ∧ Only [epdAddr (e.valM s), p, p + 16, p + 20] s s' := by
  refine Does.mono (C34_action he (by intro v h; cases h) (by intro v h; cases h) hpl hc hn) ?_
  rintro s' ⟨h1, h2⟩
  exact ⟨by rw [h1]; exact field_op md _ x hi, h2⟩

end Eud.SC
