import Verif.Lib.ListLoop
/-
C61: `EUDLoopPlayerUnit` (listloop.py:235-266), which reads the next unit of the player before the body runs.
-/

namespace Eud.SC

/-! ## Calls whose assignments are written by hand -/

/-- What a call means whose site runs the assignments `gs`; compare `CallRel`. -/
def CallGRel (L : Layout) (fend nptr back : Nat) (body : Stmt) (rs : List (Nat × Nat)) (gs : List Asg) (s s' : Mem) : Prop :=
  ∃ o s2, Exec L (.asg gs) s .nrm (runAsg gs s) ∧ (o = .nrm ∨ o = .ret) ∧ Exec L body (runAsg gs s) o s2 ∧
    s2 nptr = BitVec.ofNat 32 back ∧ RetsReady L rs s2 ∧ s' = storeRets rs (retLink fend rs s2)

/-- The site, the body and the end of the function are code for the call. -/
theorem callG_code {L : Layout} (hw : L.Wf) {fstart fend nptr e back : Nat} {rs : List (Nat × Nat)} {gs : List Asg} {body : Stmt} (hF : FuncCode L fstart fend nptr (rs.map Prod.fst) body)
    (hC : ∃ r b k, Code L r b k (.asg gs) e fstart) (hback : back < 2 ^ 32) (hnp : ∀ r ∈ rs, r.1 + 4 ≠ nptr) (r b k : Nat) : Code L r b k (.prim (CallGRel L fend nptr back body rs gs)) e back := by
  apply Code.prim
  rintro s s' ⟨o, s2, h1, ho, h2, h3, h4, rfl⟩
  obtain ⟨r', b', k', hcode⟩ := hC
  obtain ⟨b1, k1, hbody⟩ := hF.body
  have c1 : L.Runs s e _ fstart := C25_structured hw h1 hcode
  have c2 : L.Runs (runAsg gs s) fstart s2 fend := by
    have := C25_structured hw h2 hbody
    rcases ho with rfl | rfl <;> exact this
  exact (c1.trans c2).trans (hF.fend.runs hw h4 hnp hback h3).2

theorem callG_does {L : Layout} (hw : L.Wf) {fend nptr fstart back : Nat} {rs : List (Nat × Nat)} {args : List (Nat × Src)} {gs : List Asg} {body : Stmt} {ent scratch : List Nat}
    (hk : CallOk L nptr rs args scratch) (hF : FuncCode L fstart fend nptr (rs.map Prod.fst) body) (hback : back < 2 ^ 32) {s : Mem} {Q : Mem → Prop}
    (hg : ∀ g ∈ gs, L.cell g.a) (hv : ∀ g ∈ gs, ∀ v, g.src = .var v → v ∈ L.P.vars) (e2 : runAsg gs s nptr = BitVec.ofNat 32 back) (e3 : ∀ r ∈ rs, runAsg gs s (r.1 + 344) = epd r.2)
    (e4 : Only ent s (runAsg gs s)) (hb : Wp L body (runAsg gs s) fun o s2 => (o = .nrm ∨ o = .ret) ∧ Q s2 ∧ Only scratch (runAsg gs s) s2) :
    Does L (.prim (CallGRel L fend nptr back body rs gs)) s fun s' =>
      (∃ s2, Q s2 ∧ (∀ r ∈ rs, s' r.2 = s2 (r.1 + 348)) ∧ Only (rs.map Prod.snd ++ rs.map (fun r => r.1 + 4)) s2 s') ∧
      Only (rs.map Prod.snd ++ rs.map (fun r => r.1 + 4) ++ (ent ++ scratch)) s s' := by
  obtain ⟨o, s2, h1, ho, hQ, hO⟩ := hb
  have hready : RetsReady L rs s2 := by
    refine ⟨fun r hr => ⟨?_, (hk.cr r hr).2.2, (hk.cr r hr).2.1⟩, fun r hr q hq => ⟨(hk.rr r hr q hq).1, (hk.rr r hr q hq).2.1⟩,
      fun r hr q hq => (hk.rr r hr q hq).2.2.2.1⟩
    rw [hO _ (hk.sr r hr), e3 r hr]
  have hn2 : s2 nptr = BitVec.ofNat 32 back := by rw [hO _ hk.sn, e2]
  obtain ⟨hl, -⟩ := hF.fend.runs hw hready hk.hnp hback hn2
  obtain ⟨x1, x2⟩ := C31_exit (fend := fend) hl hk.nd (fun r hr q hq => (hk.rr r hr q hq).2.2.1) (fun r hr q hq => (hk.rr r hr q hq).2.2.2.2)
  have o2 : Only (rs.map Prod.snd ++ rs.map (fun r => r.1 + 4)) s2 (storeRets rs (retLink fend rs s2)) := by
    intro x hx
    simp only [List.mem_append, List.mem_map, not_or, not_exists, not_and] at hx
    exact x2 x (fun r hr => ⟨fun e => hx.1 r hr e.symm, fun e => hx.2 r hr e.symm⟩)
  refine Does.prim ⟨o, s2, .asg hg hv, ho, h1, hn2, hready, rfl⟩ ⟨⟨s2, hQ, x1, o2⟩, ?_⟩
  intro x hx
  rw [List.mem_append, not_or, List.mem_append (s := ent), not_or] at hx
  rw [o2 x hx.1, hO x hx.2.2, e4 x hx.2.1]

/-! ## The loop -/

/-- Spec: from the pointer `p` on, memory holds the list of units `l`; the dword at 0x6C of a unit is the pointer to the next unit of the same player, 0 ends the list. -/
inductive PUnitsAt (m : Mem) : W → List W → Prop
  | nil : PUnitsAt m 0 []
  | cons {p : W} {l : List W} : p ≠ 0 → PUnitsAt m (m (p.toNat + 0x6C)) l → PUnitsAt m p (p :: l)

theorem PUnitsAt.congr {m m' : Mem} {p : W} {l : List W} (h : PUnitsAt m p l) (e : ∀ q ∈ l, m' (q.toNat + 0x6C) = m (q.toNat + 0x6C)) : PUnitsAt m' p l := by
  induction h with
  | nil => exact .nil
  | @cons p l h1 _ ih =>
    refine .cons h1 ?_
    rw [e p (by simp)]
    exact ih fun q hq => e q (by simp [hq])

namespace UnRd
variable (F : UnRd)

/-- listloop.py:248-257: the assignments before the function starts.  The actions of the source are in another order; `QueueAddTo` only prepares the variable `epd`, which runs after the trigger. -/
def nextAsg (ev o1 o2 back : Nat) : List Asg :=
  [⟨cpAddr, .set, .const 27⟩, ⟨F.p + 344, .set, .const (epd o1)⟩, ⟨F.q + 344, .set, .const (epd o2)⟩, ⟨F.np, .set, .const (BitVec.ofNat 32 back)⟩, ⟨cpAddr, .add, .var ev⟩]

/-- listloop.py:243-259: pointer and EPD of the next unit go to `o1` and `o2`. -/
def nextCall (L : Layout) (ev o1 o2 back : Nat) : Stmt := .prim (CallGRel L F.fe F.np back (F.body L) [(F.p, o1), (F.q, o2)] (F.nextAsg ev o1 o2 back))

def nextScr (o1 o2 : Nat) : List Nat := [o1, o2, F.p + 4, F.q + 4] ++ ([cpAddr, F.p + 344, F.q + 344, F.np] ++ F.own)

theorem next_read {F : UnRd} {L : Layout} (h : F.Ok L) {ev o1 o2 back : Nat} (hO : CallOk L F.np [(F.p, o1), (F.q, o2)] [(cpAddr, .var ev)] F.own) (hb : back < 2 ^ 32)
    (ho : ∀ y ∈ [cpAddr, F.chk + 4, F.cpc + 352], y ∉ [o1, o2]) {s : Mem} (hr : F.Rdy s) (hrd : F.rd L (epdAddr (s (ev + 348) + 27))) :
    Does L (F.nextCall L ev o1 o2 back) s fun s' => s' o1 = unitF (s (epdAddr (s (ev + 348) + 27))) ∧ s' o2 = unitG (s (epdAddr (s (ev + 348) + 27))) ∧ s' (F.chk + 4) = BitVec.ofNat 32 F.ini ∧ Only (F.nextScr o1 o2) s s' := by
  have k2 := h.ret (F.chk + 4) (by simp)
  have j2 := ho (F.chk + 4) (by simp)
  have c1 := h.keep (F.cpc + 352) (by simp)
  have c2 := h.keep (F.chk + 4) (by simp)
  have hcc := h.k.ncp
  have hch := h.ch.ncp
  obtain ⟨hp1, hp2⟩ := hrd
  have rn := hO.rn
  have an := hO.an
  have aa := hO.aa
  have pn := hO.pn
  simp only [List.mem_cons, List.not_mem_nil, or_false, not_or, forall_eq_or_imp, forall_eq, Src.var.injEq, forall_eq'] at k2 j2 c1 c2 hcc hp2 rn an aa pn
  have pq : F.p + 344 ≠ F.q + 344 := fun e => h.pq (by omega)
  have hs1 : ∀ x, runAsg (F.nextAsg ev o1 o2 back) s x = if x = cpAddr then s (ev + 348) + 27 else if x = F.np then BitVec.ofNat 32 back else if x = F.q + 344 then epd o2 else if x = F.p + 344 then epd o1 else s x := by
    intro x
    simp only [nextAsg, runAsg_cons, runAsg_nil, arith, Src.valM, get_set]
    grind
  have m1 : ∀ x, x ≠ cpAddr → x ∉ [F.np, F.p + 344, F.q + 344] → runAsg (F.nextAsg ev o1 o2 back) s x = s x := by
    intro x h1 h2
    simp only [List.mem_cons, List.not_mem_nil, or_false, not_or] at h2
    rw [hs1, if_neg h1, if_neg h2.1, if_neg h2.2.2, if_neg h2.2.1]
  have ec : runAsg (F.nextAsg ev o1 o2 back) s cpAddr = s (ev + 348) + 27 := by rw [hs1, if_pos rfl]
  have e := genInits_fst F.rs
  have hnd : (F.rs.map GenRet.at_).Nodup := by
    have := h.pq
    simp [rs, unitRets]
    exact this
  have hH := gen_hyp (rs := F.rs) (maskBits_lt unitMask) h.cp hnd (by
    intro r hr'
    simp only [rs, unitRets, List.mem_cons, List.not_mem_nil, or_false] at hr'
    rcases hr' with rfl | rfl
    · exact ⟨h.c.1, Ne.symm h.nc.1⟩
    · exact ⟨h.c.2, Ne.symm h.nc.2⟩)
  have hd := emBody_does (n := F.n) (fin := F.fin) hH h.k h.ch (s := runAsg (F.nextAsg ev o1 o2 back) s) (by rw [m1 _ (Ne.symm hcc.2.2.2) (by simpa using c1), hr.1]) (by rw [m1 _ hch (by simpa using c2), hr.2])
    (by rw [ec]; exact hp1) (by rw [ec, e]; simp only [rs, unitRets, List.map_cons, List.map_nil, List.mem_cons, List.not_mem_nil, or_false, not_or]; exact hp2.2.2.2.2) (by rw [ec]; exact hp2.1)
  refine Does.mono (callG_does (ent := [cpAddr, F.p + 344, F.q + 344, F.np]) (Q := fun s2 => (∀ p ∈ genInits F.rs, s2 p.1 = if s (epdAddr (s (ev + 348) + 27)) = 0 then 0 else p.2 + sumBitsC (s (epdAddr (s (ev + 348) + 27))) p.1 (genItems (maskBits unitMask) F.rs)) ∧
    s2 (F.chk + 4) = BitVec.ofNat 32 F.ini) h.wf hO h.code hb ?_ ?_ ?_ ?_ ?_ ?_) ?_
  · have cr := hO.cr
    simp only [List.mem_cons, List.not_mem_nil, or_false, forall_eq_or_imp, forall_eq] at cr
    simp only [nextAsg, List.mem_cons, List.not_mem_nil, or_false, forall_eq_or_imp, forall_eq]
    exact ⟨h.cp, cr.1.1, cr.2.1, hO.cn, h.cp⟩
  · simp only [nextAsg, List.mem_cons, List.not_mem_nil, or_false, forall_eq_or_imp, forall_eq, reduceCtorEq, false_imp_iff, implies_true, true_and]
    exact (hO.ca (cpAddr, .var ev) (by simp)).2
  · rw [hs1, if_neg pn.1, if_pos rfl]
  · simp only [List.mem_cons, List.not_mem_nil, or_false, forall_eq_or_imp, forall_eq, hs1]
    refine ⟨?_, ?_⟩
    · rw [if_neg pn.2.1, if_neg (Ne.symm rn.1), if_neg pq, if_pos trivial]
    · rw [if_neg pn.2.2, if_neg (Ne.symm rn.2), if_pos trivial]
  · intro x hx
    simp only [List.mem_cons, List.not_mem_nil, or_false, not_or] at hx
    exact m1 x hx.1 (by simp only [List.mem_cons, List.not_mem_nil, or_false, not_or]; exact ⟨hx.2.2.2, hx.2.1, hx.2.2.1⟩)
  · refine Wp.mono hd.wp ?_
    rintro o s2 ⟨rfl, g1, g2, g3, g4⟩
    rw [ec, m1 _ hp2.1 (by simp only [List.mem_cons, List.not_mem_nil, or_false, not_or]; exact ⟨hp2.2.1, hp2.2.2.1, hp2.2.2.2.1⟩)] at g1
    rw [e] at g4
    exact ⟨Or.inl rfl, ⟨g1, g3⟩, g4⟩
  · rintro s' ⟨⟨s2, ⟨g1, g2⟩, g3, g4⟩, g5⟩
    have q1 : (⟨F.p + 348, 0x400008, pow2⟩ : GenRet) ∈ F.rs := List.mem_cons_self ..
    have q2 : (⟨F.q + 348, unitE0, fun i => pow2 (i - 2)⟩ : GenRet) ∈ F.rs := List.mem_cons_of_mem _ (List.mem_cons_self ..)
    refine ⟨?_, ?_, ?_, g5⟩
    · have := g3 (F.p, o1) (by simp)
      rw [g1 _ (List.mem_map_of_mem (f := fun r : GenRet => (r.at_, r.init)) q1), gen_sum _ _ q1 hnd, ← unitF] at this
      exact this
    · have := g3 (F.q, o2) (by simp)
      rw [g1 _ (List.mem_map_of_mem (f := fun r : GenRet => (r.at_, r.init)) q2), gen_sum _ _ q2 hnd, ← unitG] at this
      exact this
    · rw [g4 _ (by simp only [List.map_cons, List.map_nil, List.cons_append, List.nil_append, List.mem_cons, List.not_mem_nil, or_false, not_or]; exact ⟨j2.1, j2.2, k2.1, k2.2⟩), g2]

end UnRd

/-- listloop.py:235-264 `EUDLoopPlayerUnit(player)`: `src` is the EPD of the pointer to the first unit of the player.  The two actions after the body are at `sp` and `sp + 32`; their values are filled in by the
call before the body. -/
def loopPlayer (L : Layout) (F : UnRd) (src : Src) (p ev sp b0 b1 : Nat) (body : Stmt) : Stmt :=
  .seq (F.call L src p (ev + 348) b0)
    (.loop true .skip [cMem p .exactly 0] (.seq (F.nextCall L ev (sp + 20) (sp + 52) b1) body) (.trig [] [aMemV p .set sp, aMemV (ev + 348) .set (sp + 32)]))

/-- What the loop writes besides what the body writes. -/
def playerScr (F : UnRd) (p ev sp : Nat) : List Nat := F.scr p (ev + 348) ++ F.nextScr (sp + 20) (sp + 52)

structure PlayerOk (L : Layout) (F : UnRd) (src : Src) (h p ev sp b0 b1 : Nat) : Prop where
  fn : F.Ok L
  cp : L.cell p
  ce : L.cell (ev + 348)
  pe : p ≠ ev + 348
  hd : h % 4 = 0 ∧ h < 2 ^ 32 ∧ F.rd L h
  b : b0 < 2 ^ 32 ∧ b1 < 2 ^ 32
  call0 : CallOk L F.np [(F.p, p), (F.q, ev + 348)] [(cpAddr, src)] F.own
  call1 : CallOk L F.np [(F.p, sp + 20), (F.q, sp + 52)] [(cpAddr, .var ev)] F.own
  ho : ∀ y ∈ [cpAddr, F.chk + 4, F.cpc + 352], y ∉ [p, ev + 348, sp + 20, sp + 52]
  own : ∀ y ∈ [p, ev + 348], y ∉ F.nextScr (sp + 20) (sp + 52)
  md : F.cpc + 352 ∉ playerScr F p ev sp

theorem unit_link {w : W} (h : UnitPtr w) : epdAddr (epd w.toNat + 27) = w.toNat + 0x6C := by
  obtain ⟨i, hi, e⟩ := h
  have e' : epd w.toNat + 27 = epd (w.toNat + 0x6C) := by
    unfold epd
    apply BitVec.eq_of_toNat_eq
    simp only [BitVec.toNat_add, BitVec.toNat_ofInt]
    have : (27 : W).toNat = 27 := rfl
    rw [this]
    omega
  rw [e', epdAddr_epd (by omega) (by omega)]

/-- **C61 (`EUDLoopPlayerUnit`).** Let the pointer at `h` lead to the units `ns` of the player.  The body runs once for each of them, in order, with the pointer and the EPD in the variables.  The next unit has been read before the body
starts: so the body may change both variables and the unit it runs for, its link included, as long as the units after the next pointer remain.  `EUDContinue` goes on with the next unit, `EUDBreak` and `EUDReturn` leave
the loop. -/
theorem C61_player {L : Layout} {F : UnRd} {src : Src} {h p ev sp b0 b1 : Nat} (hO : PlayerOk L F src h p ev sp b0 b1) {body : Stmt} {ns : List W}
    (hn : ∀ q ∈ ns, UnitPtr q ∧ F.rd L (q.toNat + 0x6C) ∧ q.toNat + 0x6C ∉ playerScr F p ev sp) {I : List W → Mem → Prop}
    (hI : ∀ v s s', Only (playerScr F p ev sp) s s' → I v s → I v s') {Q : Out → Mem → Prop}
    (hb : ∀ v q l s, ns = v ++ q :: l → I v s → F.Rdy s → s p = q → s (ev + 348) = epd q.toNat → PUnitsAt s q (q :: l) → s (sp + 20) = s (q.toNat + 0x6C) → Wp L body s fun o s2 => match o with
      | .brk => Q .nrm s2
      | .ret => Q .ret s2
      | _ => I (v ++ [q]) s2 ∧ F.Rdy s2 ∧ (∀ y ∈ [sp + 20, sp + 52], s2 y = s y) ∧ PUnitsAt s2 (s (sp + 20)) l)
    (hQ : ∀ s, I ns s → Q .nrm s) {s : Mem} (he : src.valM s = epd h) (h0 : I [] s) (hr : F.Rdy s) (hl : PUnitsAt s (s h) ns) : Wp L (loopPlayer L F src p ev sp b0 b1 body) s Q := by
  have fx : ∀ {m : Mem} {q : W} {l : List W}, PUnitsAt m q l → (∀ x ∈ l, x ∈ ns) → unitF q = q ∧ (l ≠ [] → unitG q = epd q.toNat) := by
    intro m q l hq hl
    cases hq with
    | nil => exact ⟨rfl, fun hn => absurd rfl hn⟩
    | cons hq _ => exact ⟨(unit_read (hn _ (hl _ (by simp))).1).1, fun _ => (unit_read (hn _ (hl _ (by simp))).1).2⟩
  have eh := epdAddr_epd hO.hd.1 hO.hd.2.1
  have hmd : F.cpc + 352 ∉ F.scr p (ev + 348) ∧ F.cpc + 352 ∉ F.nextScr (sp + 20) (sp + 52) := by
    have := hO.md
    simpa only [playerScr, List.mem_append, not_or] using this
  have ho1 : ∀ y ∈ [cpAddr, F.chk + 4, F.cpc + 352], y ∉ [p, ev + 348] := fun y hy hy' => hO.ho y hy (by simp only [List.mem_cons, List.not_mem_nil, or_false] at hy' ⊢; rcases hy' with h | h <;> simp [h])
  have ho2 : ∀ y ∈ [cpAddr, F.chk + 4, F.cpc + 352], y ∉ [sp + 20, sp + 52] := fun y hy hy' => hO.ho y hy (by simp only [List.mem_cons, List.not_mem_nil, or_false] at hy' ⊢; rcases hy' with h | h <;> simp [h])
  have sub1 : ∀ {s s' : Mem}, Only (F.scr p (ev + 348)) s s' → Only (playerScr F p ev sp) s s' := fun h x hx => h x fun h' => hx (List.mem_append_left _ h')
  have sub2 : ∀ {s s' : Mem}, Only (F.nextScr (sp + 20) (sp + 52)) s s' → Only (playerScr F p ev sp) s s' := fun h x hx => h x fun h' => hx (List.mem_append_right _ h')
  have pin : p ∈ playerScr F p ev sp := by simp [playerScr, UnRd.scr, callOnly]
  have ein : ev + 348 ∈ playerScr F p ev sp := by simp [playerScr, UnRd.scr, callOnly]
  refine Wp.seqN (Does.mono (UnRd.read hO.fn hO.call0 hO.b.1 ho1 hr (by rw [he, eh]; exact hO.hd.2.2)) ?_)
  rintro s1 ⟨a1, a2, -, ar, a3⟩
  simp only [he, eh] at a1 a2
  obtain ⟨f1, f2⟩ := fx hl fun _ hx => hx
  refine Wp.loop (Q := Q) (fun n s => ∃ v l, ns = v ++ l ∧ I v s ∧ F.Rdy s ∧ PUnitsAt s (s p) l ∧ (l ≠ [] → s (ev + 348) = epd (s p).toNat) ∧ n = l.length) ?_ (n := ns.length)
    ⟨[], ns, rfl, hI _ _ _ (sub1 a3) h0, ⟨(a3 _ hmd.1).trans hr.1, ar⟩, ?_, ?_, rfl⟩
  · rintro n s2 ⟨v, l, e0, i2, r2, c2, k2, rfl⟩
    have hst : holdsAll s2 [cMem p .exactly 0] = decide (s2 p = 0) := by simp only [holdsAll_cons, holdsAll_nil, cMem_holds, compare, Bool.and_true]
    refine Does.skip ⟨by simp only [List.mem_singleton, forall_eq]; exact cMem_ok hO.cp _ _ _, fun hn' => ?_, fun hn' => ?_⟩
    · rw [hst, decide_eq_true_eq] at hn'
      rw [hn'] at c2
      cases c2 with
      | nil => rw [e0, List.append_nil] at hQ; exact hQ _ i2
      | cons h' => exact absurd rfl h'
    · rw [hst, Bool.not_true, decide_eq_false_iff_not] at hn'
      generalize hq : s2 p = q at c2 k2 hn'
      cases c2 with
      | nil => exact absurd rfl hn'
      | @cons _ l h' c2 =>
        obtain ⟨nq1, nq2, nq3⟩ := hn q (by rw [e0]; simp)
        have eq2 := k2 (by simp)
        have el := unit_link nq1
        refine Wp.seqN (Does.mono (UnRd.next_read hO.fn hO.call1 hO.b.2 ho2 r2 (by rw [eq2, el]; exact nq2)) ?_)
        rintro s3 ⟨b1', b2', br, b3⟩
        simp only [eq2, el] at b1' b2'
        obtain ⟨g1, g2⟩ := fx c2 fun x hx => by rw [e0]; simp [hx]
        rw [g1] at b1'
        have hq6 : q.toNat + 0x6C ∉ F.nextScr (sp + 20) (sp + 52) := fun hh => nq3 (List.mem_append_right _ hh)
        have c3 : PUnitsAt s3 q (q :: l) := (PUnitsAt.cons h' c2).congr fun x hx => b3 _ fun hh => (hn x (by rw [e0]; simp only [List.mem_append]; exact Or.inr hx)).2.2 (List.mem_append_right _ hh)
        refine Wp.mono (hb v q l s3 e0 (hI _ _ _ (sub2 b3) i2) ⟨(b3 _ hmd.2).trans r2.1, br⟩ (by rw [b3 _ (hO.own p (by simp)), hq]) (by rw [b3 _ (hO.own (ev + 348) (by simp)), eq2]) c3 (by rw [b1', b3 _ hq6])) ?_
        intro o s4 h4
        have key : I (v ++ [q]) s4 ∧ F.Rdy s4 ∧ (∀ y ∈ [sp + 20, sp + 52], s4 y = s3 y) ∧ PUnitsAt s4 (s3 (sp + 20)) l →
            Does L (.trig [] [aMemV p .set sp, aMemV (ev + 348) .set (sp + 32)]) s4 (fun s5 => ∃ m, m < (q :: l).length ∧ ∃ v l, ns = v ++ l ∧ I v s5 ∧ F.Rdy s5 ∧ PUnitsAt s5 (s5 p) l ∧ (l ≠ [] → s5 (ev + 348) = epd (s5 p).toNat) ∧ m = l.length) := by
          rintro ⟨i4, r4, w4, c4⟩
          refine Does.trig (by simp) (fun _ => ⟨actsOk_memV hO.cp (actsOk_memV hO.ce trivial), ?_⟩) (fun h => by cases h)
          simp only [runPA_cons, runPA_nil, aMemV_run, arith]
          have n1 : sp + 32 + 20 ≠ p := fun e => hO.own p (by simp) (by rw [← e]; simp [UnRd.nextScr])
          rw [set_ne n1, show sp + 32 + 20 = sp + 52 from rfl, w4 (sp + 20) (by simp), w4 (sp + 52) (by simp), b1', b2']
          have o5 : Only (playerScr F p ev sp) s4 ((s4.set p (s2 (q.toNat + 0x6C))).set (ev + 348) (unitG (s2 (q.toNat + 0x6C)))) := ((Only.refl _ _).set pin _).set ein _
          have hch := hO.ho (F.chk + 4) (by simp)
          simp only [List.mem_cons, List.not_mem_nil, or_false, not_or] at hch
          rw [b1'] at c4
          refine ⟨_, Nat.lt_succ_self l.length, v ++ [q], l, by simpa using e0, hI _ _ _ o5 i4, ⟨(o5 _ hO.md).trans r4.1, ?_⟩, ?_, ?_, rfl⟩
          · rw [set_ne hch.2.1, set_ne hch.1, r4.2]
          · rw [set_ne hO.pe, set_eq]
            exact c4.congr fun x hx => o5 _ (hn x (by rw [e0]; simp [hx])).2.2
          · intro hl'
            rw [set_eq, set_ne hO.pe, set_eq, g2 hl']
        cases o with
        | brk => exact h4
        | ret => exact h4
        | nrm => exact key h4
        | cont => exact key h4
  · rw [a1, f1]
    exact hl.congr fun x hx => sub1 a3 _ (hn x hx).2.2
  · intro hn'
    rw [a1, f1, a2, f2 hn']

end Eud.SC
