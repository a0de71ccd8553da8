import Verif.Lib.MemRead
/-
Reading memory relative to the current player: `f_dwepdread_cp` (memio/cpmemio.py), the readers of `f_readgen_cp` (memio/memifgen.py), and
`_cp_caller` (memio/readtable.py), which `f_dwread_cp`, `f_epdread_cp`, `f_wread_cp`, `f_bread_cp` and `f_maskread_cp` use.
-/

namespace Eud.SC

/-! ## Moving the current player -/

/-- `st` adds `d` to the current player. -/
def AddsCp (L : Layout) (st : Stmt) (d : Mem → W) (scr : List Nat) : Prop :=
  ∀ s, Does L st s fun s' => s' cpAddr = s cpAddr + d s ∧ Only (cpAddr :: scr) s s'

theorem AddsCp.mono {L : Layout} {st : Stmt} {d : Mem → W} {scr scr' : List Nat} (h : AddsCp L st d scr) (hs : ∀ x ∈ scr, x ∈ scr') : AddsCp L st d scr' :=
  fun s => Does.mono (h s) fun s' e => ⟨e.1, e.2.mono fun x hx => by
    rw [List.mem_cons] at hx ⊢
    exact hx.imp id (hs x)⟩

/-- Nothing is emitted for the offset 0. -/
theorem AddsCp.zero {L : Layout} : AddsCp L .skip (fun _ => 0) [] := fun s => ⟨s, .skip _, by simp, Only.refl _ s⟩

/-- `DoActions(SetMemory(0x6509B0, Add, c))` -/
def cpAddK (c : W) : Stmt := .trig [] [aMem cpAddr .add c]
/-- The same for a variable: its value is put into the action at `p` before (trigger/tpatcher.py). -/
def cpAddV (v p : Nat) : Stmt := .seq (.asg [⟨p + 20, .set, .var v⟩]) (.trig [] [aMemV cpAddr .add p])
/-- `DoActions(SetMemory(0x6509B0, Add, -v))`: eudv.py:372-375, 362-369 with the result in `t`. -/
def cpSubV (v t p : Nat) : Stmt :=
  .seq (.asg [⟨t + 348, .set, .const 0xFFFFFFFF⟩, ⟨t + 348, .sub, .var v⟩, ⟨t + 348, .add, .const 1⟩]) (cpAddV t p)

theorem full_sub (y : W) : (if (0xFFFFFFFF : W) < y then 0 else (0xFFFFFFFF : W) - y) = ~~~ y := by
  have hy := y.isLt
  have hf : (0xFFFFFFFF : W).toNat = 0xFFFFFFFF := rfl
  rw [if_neg (by rw [BitVec.lt_def, hf]; omega)]
  apply BitVec.eq_of_toNat_eq
  rw [BitVec.toNat_sub, BitVec.toNat_not, hf]
  omega

theorem AddsCp.const {L : Layout} (hcp : L.cell cpAddr) (c : W) : AddsCp L (cpAddK c) (fun _ => c) [] := by
  intro s
  refine Does.acts (actsOk_mem hcp trivial) ?_
  simp only [runPA_cons, runPA_nil, aMem_run, arith]
  exact ⟨set_eq .., (Only.refl _ s).set (by simp) _⟩

theorem AddsCp.var {L : Layout} (hcp : L.cell cpAddr) {v p : Nat} (hv : v ∈ L.P.vars) (hp : L.cell (p + 20)) (hne : p + 20 ≠ cpAddr) :
    AddsCp L (cpAddV v p) (fun s => s (v + 348)) [p + 20] := by
  intro s
  refine Does.seq (Does.asg (by simpa using hp) (by simpa using hv) (Does.acts (actsOk_memV hcp trivial) ?_))
  simp only [runPA_cons, runPA_nil, aMemV_run, runAsg, arith, Src.valM, set_eq]
  rw [set_ne (Ne.symm hne)]
  exact ⟨rfl, ((Only.refl _ s).set (by simp) _).set (by simp) _⟩

theorem AddsCp.neg {L : Layout} (hcp : L.cell cpAddr) {v t p : Nat} (hv : v ∈ L.P.vars ∧ t ∈ L.P.vars) (ht : L.cell (t + 348)) (htv : t ≠ v) (hp : L.cell (p + 20))
    (hne : p + 20 ≠ cpAddr ∧ t + 348 ≠ cpAddr) : AddsCp L (cpSubV v t p) (fun s => - s (v + 348)) [t + 348, p + 20] := by
  intro s
  unfold cpSubV
  refine Does.seq (Does.asg (by simp [ht]) (by simp [hv.1]) ?_)
  refine Does.mono (AddsCp.var hcp hv.2 hp hne.1 _) ?_
  rintro s' ⟨h1, h2⟩
  have e : ∀ x, runAsg [⟨t + 348, .set, .const 0xFFFFFFFF⟩, ⟨t + 348, .sub, .var v⟩, ⟨t + 348, .add, .const 1⟩] s x = if x = t + 348 then - s (v + 348) else s x := by
    intro x
    simp only [runAsg, Src.valM, arith, get_set, if_true]
    rw [if_neg (show v + 348 ≠ t + 348 by omega)]
    split
    · have := (s (v + 348)).isLt
      generalize s (v + 348) = y at *
      rw [← neg_eq, ← full_sub y]
    · rfl
  simp only [] at h1
  rw [e, e, if_neg (Ne.symm hne.2), if_pos rfl] at h1
  refine ⟨h1, ?_⟩
  intro x hx
  simp only [List.mem_cons, List.not_mem_nil, or_false, not_or] at hx
  rw [h2 x (by simp; omega), e, if_neg hx.2.1]

/-! ## `f_dwepdread_cp`, `f_readgen_cp` -/

/-- cpmemio.py:34-40, memifgen.py:184-190: the current player is moved, the reader is called, the current player is moved back. -/
def rdCpCall (a call b : Stmt) : Stmt := .seq a (.seq call b)

/-- The reader is a function without parameters whose body is `rdCore`. -/
theorem rdCp_does {L : Layout} (hw : L.Wf) {fend nptr fstart back : Nat} {rs : List (Nat × Nat)} {inits : List (Nat × W)} {items : List (Nat × List (Nat × W))}
    (h : RdHyp L inits items) (hO : CallOk L nptr rs [] (cpAddr :: inits.map Prod.fst))
    (hF : FuncCode L fstart fend nptr (rs.map Prod.fst) (rdCore 0 inits items)) (hback : back < 2 ^ 32)
    {a b : Stmt} {d d' : Mem → W} {scr : List Nat} (ha : AddsCp L a d scr) (hb : AddsCp L b d' scr) {s : Mem}
    (hd : ∀ s', Only (cpAddr :: scr ++ callOnly nptr rs [] (inits.map Prod.fst)) s s' → d' s' = - d s)
    (hcp : cpAddr ∉ callOnly nptr rs [] [])
    (hos : ∀ r ∈ rs, r.2 ≠ cpAddr ∧ r.2 ∉ scr)
    (hp : ¬ L.priv (epdAddr (s cpAddr + d s))) (hn : epdAddr (s cpAddr + d s) ∉ cpAddr :: nptr :: rs.map (fun r => r.1 + 344) ++ inits.map Prod.fst ++ scr) :
    Does L (rdCpCall a (.prim (CallRel L fend nptr back (rdCore 0 inits items) rs [])) b) s fun s' =>
      (∀ r ∈ rs, ∀ p ∈ inits, p.1 = r.1 + 348 → s' r.2 = p.2 + sumBitsC (s (epdAddr (s cpAddr + d s))) p.1 items) ∧
      s' cpAddr = s cpAddr ∧ Only (cpAddr :: scr ++ callOnly nptr rs [] (inits.map Prod.fst)) s s' := by
  simp only [List.cons_append, List.mem_cons, List.mem_append, not_or] at hn
  unfold rdCpCall
  refine Does.seq (Does.mono (ha s) ?_)
  rintro s1 ⟨a1, a2⟩
  have ev : s1 (epdAddr (s cpAddr + d s)) = s (epdAddr (s cpAddr + d s)) := a2 _ (by simp only [List.mem_cons, not_or]; exact ⟨hn.1, hn.2.2.2⟩)
  refine Does.seq (Does.mono (C31_does hw hO hF hback (Q := fun s2 => (∀ p ∈ inits, s2 p.1 = p.2 + sumBitsC (s (epdAddr (s cpAddr + d s))) p.1 items) ∧ s2 cpAddr = s1 cpAddr) ?_) ?_)
  · intro s2 _ e2
    have ek : ∀ x, x ≠ nptr → x ∉ rs.map (fun r => r.1 + 344) → s2 x = s1 x := fun x h2 h3 => e2 x (by
      simp only [List.map_nil, List.append_nil, List.mem_cons, not_or]; exact ⟨h2, h3⟩)
    have ec : s2 cpAddr = s cpAddr + d s := by
      rw [ek _ ?_ ?_, a1]
      · intro e; exact hcp (by simp [callOnly, e])
      · intro e; exact hcp (by simp only [callOnly, List.mem_cons, List.mem_append]; exact Or.inr (Or.inl (Or.inl (Or.inr e))))
    have hd' := rdCore_does (u := 0) h (s := s2) (by rw [ec]; exact hp) (by rw [ec]; exact hn.2.2.1.2) (by rw [ec]; exact hn.1)
    refine Wp.mono hd'.wp ?_
    rintro o s3 ⟨rfl, g1, g2, g3⟩
    rw [ec, ek _ hn.2.1 hn.2.2.1.1, ev] at g1
    refine ⟨Or.inl rfl, ⟨g1, ?_⟩, g3⟩
    rw [g2, ec, a1, show -(12 * BitVec.ofNat 32 0) = (0 : W) from rfl]
    simp
  · rintro s2 ⟨⟨s3, ⟨g1, g2⟩, g3, g4⟩, g5⟩
    have o2 : Only (cpAddr :: scr ++ callOnly nptr rs [] (inits.map Prod.fst)) s s2 := by
      refine Only.trans (s2 := s1) (a2.mono fun x hx => List.mem_append_left _ hx) (g5.mono fun x hx => ?_)
      simp only [callOnly, List.map_nil, List.append_nil, List.mem_cons, List.mem_append, List.cons_append] at hx ⊢
      grind
    have ec : s2 cpAddr = s1 cpAddr := by
      rw [g4 _ ?_, g2]
      intro e
      exact hcp (by simp only [callOnly, List.mem_cons, List.mem_append] at e ⊢; exact Or.inr (Or.inl (Or.inl (Or.inl e))))
    refine Does.mono (hb s2) ?_
    rintro s' ⟨b1, b2⟩
    refine ⟨fun r hr p hp' e => ?_, ?_, ?_⟩
    · rw [b2 _ (by simp only [List.mem_cons, not_or]; exact hos r hr), g3 r hr, ← e]
      exact g1 p hp'
    · rw [b1, ec, a1, hd s2 o2, BitVec.add_assoc, BitVec.add_right_neg]
      simp
    · exact o2.trans (b2.mono fun x hx => List.mem_append_left _ hx)

/-- **C32 (`f_dwepdread_cp`).** The results are the dword at `cpo` dwords from the current player and its EPD as a pointer; the current player is as before. -/
theorem C32_dwepdread_cp {L : Layout} (hw : L.Wf) {fend nptr fstart back p q o1 o2 : Nat} (hcp : L.cell cpAddr)
    (hc : L.cell (p + 348) ∧ L.cell (q + 348)) (hpq : p ≠ q) (hnc : cpAddr ≠ p + 348 ∧ cpAddr ≠ q + 348)
    (hO : CallOk L nptr [(p, o1), (q, o2)] [] (cpAddr :: [p + 348, q + 348]))
    (hF : FuncCode L fstart fend nptr [p, q] (rdCore 0 (dwepdInits (p + 348) (q + 348)) (dwepdItems (p + 348) (q + 348)))) (hback : back < 2 ^ 32)
    {a b : Stmt} {d d' : Mem → W} {scr : List Nat} (ha : AddsCp L a d scr) (hb : AddsCp L b d' scr) {s : Mem}
    (hd : ∀ s', Only (cpAddr :: scr ++ [nptr, o1, o2, p + 4, q + 4, p + 344, q + 344, p + 348, q + 348]) s s' → d' s' = - d s)
    (hcr : cpAddr ∉ [nptr, o1, o2, p + 4, q + 4, p + 344, q + 344]) (hos : o1 ∉ scr ∧ o2 ∉ scr)
    (hp : ¬ L.priv (epdAddr (s cpAddr + d s))) (hn : epdAddr (s cpAddr + d s) ∉ [cpAddr, nptr, p + 344, q + 344, p + 348, q + 348] ++ scr) :
    Does L (rdCpCall a (.prim (CallRel L fend nptr back (rdCore 0 (dwepdInits (p + 348) (q + 348)) (dwepdItems (p + 348) (q + 348))) [(p, o1), (q, o2)] [])) b) s fun s' =>
      s' o1 = s (epdAddr (s cpAddr + d s)) ∧ s' o2 = epd (s (epdAddr (s cpAddr + d s))).toNat ∧ s' cpAddr = s cpAddr ∧
      Only (cpAddr :: scr ++ [nptr, o1, o2, p + 4, q + 4, p + 344, q + 344, p + 348, q + 348]) s s' := by
  have hne : p + 348 ≠ q + 348 := by omega
  have h : RdHyp L (dwepdInits (p + 348) (q + 348)) (dwepdItems (p + 348) (q + 348)) := by
    refine ⟨hcp, ?_, ?_, dwepd_items⟩
    · simp [dwepdInits, hpq]
    · intro x hx
      simp only [dwepdInits, List.mem_cons, List.not_mem_nil, or_false] at hx
      rcases hx with rfl | rfl
      · exact ⟨hc.1, Ne.symm hnc.1⟩
      · exact ⟨hc.2, Ne.symm hnc.2⟩
  have ecall : callOnly nptr [(p, o1), (q, o2)] [] ((dwepdInits (p + 348) (q + 348)).map Prod.fst) = [nptr, o1, o2, p + 4, q + 4, p + 344, q + 344, p + 348, q + 348] := rfl
  have ecall0 : callOnly nptr [(p, o1), (q, o2)] [] [] = [nptr, o1, o2, p + 4, q + 4, p + 344, q + 344] := rfl
  simp only [List.mem_cons, List.not_mem_nil, or_false, not_or] at hcr
  have := rdCp_does hw h hO hF hback ha hb (s := s) (by rw [ecall]; exact hd) (by rw [ecall0]; simp only [List.mem_cons, List.not_mem_nil, or_false, not_or]; exact hcr) (by
    intro r hr
    simp only [List.mem_cons, List.not_mem_nil, or_false] at hr
    rcases hr with rfl | rfl
    · exact ⟨Ne.symm hcr.2.1, hos.1⟩
    · exact ⟨Ne.symm hcr.2.2.1, hos.2⟩) hp (by simpa [dwepdInits] using hn)
  rw [ecall] at this
  refine Does.mono this ?_
  rintro s' ⟨g1, g2, g3⟩
  refine ⟨?_, ?_, g2, g3⟩
  · rw [g1 (p, o1) (by simp) (p + 348, 0) (by simp [dwepdInits]) rfl, dwepd_fst _ hne]
    simp
  · rw [g1 (q, o2) (by simp) (q + 348, epd 0) (by simp [dwepdInits]) rfl, dwepd_snd _ hne]

/-- **C32 (`f_readgen_cp`).** Every result is its start value plus the sum of what its function gives for the bits of the mask that are set in the dword `cpo`
dwords from the current player; the current player is as before. -/
theorem C32_readgen_cp {L : Layout} (hw : L.Wf) {fend nptr fstart back : Nat} {mask : W} {rs : List GenRet} {outs : List (Nat × Nat)}
    (hcp : L.cell cpAddr) (hnd : (rs.map GenRet.at_).Nodup) (hc : ∀ r ∈ rs, L.cell r.at_ ∧ r.at_ ≠ cpAddr)
    (hO : CallOk L nptr outs [] (cpAddr :: rs.map GenRet.at_))
    (hF : FuncCode L fstart fend nptr (outs.map Prod.fst) (rdCore 0 (genInits rs) (genItems (maskBits mask) rs))) (hback : back < 2 ^ 32)
    {a b : Stmt} {d d' : Mem → W} {scr : List Nat} (ha : AddsCp L a d scr) (hb : AddsCp L b d' scr) {s : Mem}
    (hd : ∀ s', Only (cpAddr :: scr ++ callOnly nptr outs [] (rs.map GenRet.at_)) s s' → d' s' = - d s)
    (hcr : cpAddr ∉ callOnly nptr outs [] []) (hos : ∀ r ∈ outs, r.2 ≠ cpAddr ∧ r.2 ∉ scr)
    (hp : ¬ L.priv (epdAddr (s cpAddr + d s))) (hn : epdAddr (s cpAddr + d s) ∉ cpAddr :: nptr :: outs.map (fun r => r.1 + 344) ++ rs.map GenRet.at_ ++ scr) :
    Does L (rdCpCall a (.prim (CallRel L fend nptr back (rdCore 0 (genInits rs) (genItems (maskBits mask) rs)) outs [])) b) s fun s' =>
      (∀ o ∈ outs, ∀ r ∈ rs, r.at_ = o.1 + 348 → s' o.2 = r.init + bitSum (s (epdAddr (s cpAddr + d s))) r.f (maskBits mask)) ∧
      s' cpAddr = s cpAddr ∧ Only (cpAddr :: scr ++ callOnly nptr outs [] (rs.map GenRet.at_)) s s' := by
  have e := genInits_fst rs
  have h := rdCp_does (rs := outs) hw (gen_hyp (maskBits_lt mask) hcp hnd hc) (by rw [e]; exact hO) hF hback ha hb (by rw [e]; exact hd) hcr hos hp (by rw [e]; exact hn)
  rw [e] at h
  refine Does.mono h ?_
  rintro s' ⟨g1, g2, g3⟩
  refine ⟨fun o ho' r hr er => ?_, g2, g3⟩
  rw [g1 o ho' (r.at_, r.init) (List.mem_map_of_mem (f := fun r : GenRet => (r.at_, r.init)) hr) er, gen_sum _ _ hr hnd]

/-! ## `_cp_caller` -/

/-- readtable.py:143-156: the operations before the reader, in the order in which `NonSeqCompute` emits them (constants first, eudv.py:856-894). -/
def cpOps (rend nxt o : Nat) (src : Src) (init : Option W) : List Asg :=
  let rest : List Asg := [⟨rend + 4, .set, .const (BitVec.ofNat 32 nxt)⟩, ⟨rend + 344, .set, .const (epd o)⟩] ++ (init.map fun w => (⟨rend + 348, .set, .const w⟩ : Asg)).toList
  match src with
  | .const c => if c = 0 then rest else ⟨cpAddr, .add, .const c⟩ :: rest
  | .var v => rest ++ [⟨cpAddr, .add, .var v⟩]

/-- The dwords that `_cp_caller` uses. -/
structure RdCpOk (L : Layout) (rend o : Nat) (src : Src) : Prop where
  nd : [rend + 4, rend + 344, rend + 348, cpAddr].Nodup
  co : L.cell o
  eo : EpdOK o
  no : o ∉ [rend + 4, rend + 344, rend + 348, cpAddr]
  src : ∀ v, src = .var v → v ∈ L.P.vars ∧ v + 348 ∉ [rend + 4, rend + 344, rend + 348, cpAddr]

/-- The memory after the reader: the current player is still moved. -/
def cpRdRes (rend nxt o : Nat) (d init w : W) (s : Mem) : Mem := fun x =>
  if x = o then init + w else if x = rend + 4 then BitVec.ofNat 32 nxt else if x = rend + 344 then epd o else if x = rend + 348 then 0
  else if x = cpAddr then s cpAddr + d else s x

/-- The operations and the reader as a statement. -/
def CpRdRel (L : Layout) (rend nxt o mask : Nat) (sh : Int) (src : Src) (init : Option W) (s s' : Mem) : Prop :=
  ¬ L.priv (epdAddr (s cpAddr + src.valM s)) ∧ epdAddr (s cpAddr + src.valM s) ∉ [rend + 4, rend + 344, rend + 348, cpAddr] ∧
    s' = cpRdRes rend nxt o (src.valM s) (init.getD (s (rend + 348))) (readVal (s (epdAddr (s cpAddr + src.valM s))) mask sh) s

theorem C32_cp_code {L : Layout} (hw : L.Wf) {T : RT} {A : Nat → Nat} {rend o t mask nxt : Nat} {sh : Int} {src : Src} {init : Option W}
    (hT : RdTab L T A rend) (hr : Reader L rend t mask sh) (hk : RdCpOk L rend o src) (hn : nxt < 2 ^ 32) {r b k e : Nat}
    (hcode : Code L r b k (.asg (cpOps rend nxt o src init)) e t) : Code L r b k (.prim (CpRdRel L rend nxt o mask sh src init)) e nxt := by
  refine .prim ?_
  rintro s s' ⟨hp, hd, rfl⟩
  have nd := hk.nd
  have hno := hk.no
  simp only [List.nodup_cons, List.mem_cons, not_or, List.not_mem_nil, not_false_eq_true, List.nodup_nil, and_true, or_false] at nd hno hd
  have hx : Exec L (.asg (cpOps rend nxt o src init)) s .nrm (runAsg (cpOps rend nxt o src init) s) := by
    refine .asg ?_ ?_
    · intro g hg
      have : g.a ∈ [rend + 4, rend + 344, rend + 348, cpAddr] := by
        unfold cpOps at hg
        cases src with
        | const c => cases init <;> simp at hg ⊢ <;> grind
        | var v => cases init <;> simp at hg ⊢ <;> grind
      simp only [List.mem_cons, List.not_mem_nil, or_false] at this
      rcases this with h | h | h | h <;> rw [h]
      · exact hT.c4
      · exact hT.c344
      · exact hT.c348
      · exact hT.cp
    · intro g hg v hv
      have : src = .var v := by
        unfold cpOps at hg
        cases src with
        | const c => cases init <;> simp at hg <;> grind
        | var v => cases init <;> simp at hg <;> grind
      exact (hk.src v this).1
  have h1 := C25_structured hw hx hcode
  simp only [Out.dest] at h1
  have hs1 : ∀ x, runAsg (cpOps rend nxt o src init) s x = if x = cpAddr then s cpAddr + src.valM s else if x = rend + 348 then init.getD (s (rend + 348)) else
      if x = rend + 344 then epd o else if x = rend + 4 then BitVec.ofNat 32 nxt else s x := by
    have hv := hk.src
    intro x
    unfold cpOps
    cases src with
    | const c =>
      by_cases hc : c = 0
      · subst hc
        cases init <;> simp [runAsg, get_set, arith, Src.valM] <;> grind
      · simp only [if_neg hc]
        cases init <;> simp [runAsg, get_set, arith, Src.valM] <;> grind
    | var v =>
      have hv := (hv v rfl).2
      simp only [List.mem_cons, List.not_mem_nil, or_false, not_or] at hv
      cases init <;> simp [runAsg, get_set, arith, Src.valM] <;> grind
  generalize runAsg (cpOps rend nxt o src init) s = s1 at h1 hs1
  have ecp : s1 cpAddr = s cpAddr + src.valM s := by rw [hs1]; simp
  have e4 : s1 (rend + 4) = BitVec.ofNat 32 nxt := by rw [hs1]; grind
  have e344 : s1 (rend + 344) = epd o := by rw [hs1]; grind
  have e348 : s1 (rend + 348) = init.getD (s (rend + 348)) := by rw [hs1]; grind
  have ev : s1 (epdAddr (s cpAddr + src.valM s)) = s (epdAddr (s cpAddr + src.valM s)) := by rw [hs1]; grind
  have h2 := hr.runs hw hT (s := s1) (o := o) (k := nxt) (by rw [ecp]; exact hp) (by rw [ecp]; exact hd.2.2.1) hn e4 e344 hk.eo hk.co hno.1
  rw [ecp, e348, ev] at h2
  have e7 : (s1.set o (init.getD (s (rend + 348)) + readVal (s (epdAddr (s cpAddr + src.valM s))) mask sh)).set (rend + 348) 0 =
      cpRdRes rend nxt o (src.valM s) (init.getD (s (rend + 348))) (readVal (s (epdAddr (s cpAddr + src.valM s))) mask sh) s := by
    funext x
    unfold cpRdRes
    simp only [get_set, hs1]
    grind
  rw [e7] at h2
  exact h1.trans h2

/-- **C32 (reading at the current player).** For all memory contents, every current player and every offset, the dword being none that the readers use: the
result is `floor((value & mask) * 2 ^ shift)` plus the start value, the current player is as before, and only the listed dwords change.  `b` moves the
current player back. -/
theorem C32_cp {L : Layout} {rend o mask nxt : Nat} {sh : Int} {src : Src} {init : Option W} (hk : RdCpOk L rend o src) {s : Mem}
    {b : Stmt} {d' : Mem → W} {scr : List Nat} (hb : AddsCp L b d' scr) (hd : ∀ s', Only [o, rend + 4, rend + 344, rend + 348, cpAddr] s s' → d' s' = - src.valM s)
    (hos : o ∉ scr ∧ rend + 348 ∉ scr)
    (hp : ¬ L.priv (epdAddr (s cpAddr + src.valM s))) (hn : epdAddr (s cpAddr + src.valM s) ∉ [rend + 4, rend + 344, rend + 348, cpAddr]) :
    Does L (.seq (.prim (CpRdRel L rend nxt o mask sh src init)) b) s fun s' =>
      s' o = init.getD (s (rend + 348)) + readVal (s (epdAddr (s cpAddr + src.valM s))) mask sh ∧ s' cpAddr = s cpAddr ∧ s' (rend + 348) = 0 ∧
        Only ([o, rend + 4, rend + 344, rend + 348, cpAddr] ++ scr) s s' := by
  have nd := hk.nd
  have hno := hk.no
  simp only [List.nodup_cons, List.mem_cons, not_or, List.not_mem_nil, not_false_eq_true, List.nodup_nil, and_true, or_false] at nd hno
  refine Does.seq (Does.prim ⟨hp, hn, rfl⟩ ?_)
  have o1 : Only [o, rend + 4, rend + 344, rend + 348, cpAddr] s
      (cpRdRes rend nxt o (src.valM s) (init.getD (s (rend + 348))) (readVal (s (epdAddr (s cpAddr + src.valM s))) mask sh) s) := by
    intro x hx
    simp only [List.mem_cons, List.not_mem_nil, or_false, not_or] at hx
    unfold cpRdRes
    grind
  refine Does.mono (hb _) ?_
  rintro s' ⟨b1, b2⟩
  refine ⟨?_, ?_, ?_, ?_⟩
  · rw [b2 _ (by simp only [List.mem_cons, not_or]; exact ⟨hno.2.2.2, hos.1⟩)]; simp [cpRdRes]
  · rw [b1, hd _ o1]
    have : cpRdRes rend nxt o (src.valM s) (init.getD (s (rend + 348))) (readVal (s (epdAddr (s cpAddr + src.valM s))) mask sh) s cpAddr = s cpAddr + src.valM s := by
      unfold cpRdRes; grind
    rw [this, BitVec.add_assoc, BitVec.add_right_neg]; simp
  · rw [b2 _ (by simp only [List.mem_cons, not_or]; exact ⟨by omega, hos.2⟩)]
    unfold cpRdRes; grind
  · refine Only.trans (s2 := _) (o1.mono fun x hx => List.mem_append_left _ hx) (b2.mono fun x hx => ?_)
    rcases List.mem_cons.1 hx with rfl | hx
    · simp
    · exact List.mem_append_right _ hx

end Eud.SC
