import Verif.Lib.MemBase
/-
`EUDSwitch` with a jump table whose first trigger carries further actions, `block["_actions"]` (swblock.py:232-234): the memory
readers with a variable sub-offset (memio/bwepdio.py, memio/cpmemio.py) put their preparations there.
-/

namespace Eud.SC

/-- The code of a switch with a jump table (swblock.py:190-231) with actions in its first trigger; without any it is `JumpCode`. -/
structure JumpCodeA (L : Layout) (x : Nat) (mask : W) (acts : List PA) (cases : List (W × Nat)) (dflt e : Nat) where
  r : Nat
  b0 : Nat
  j : Nat
  tbl : Nat
  inv : if invMask cases mask ≠ 0 then BranchAt L r dflt e [cMemX x .exactly (keyAnd cases) (invMask cases mask)] [] else e = r
  rb : (⟨r, ⟨[], sNext j tbl :: acts.map PA.a⟩, some b0, false⟩ : SBlk) ∈ L.P.blks
  pl : PlacedA (r + 328 + 32) acts
  bits : BitsCode L x j 0 (bitPlaces (keyXor cases)) b0
  tab : ∀ (i t : Nat), (jumpTargets cases dflt)[i]? = some t → (tbl + 20 * i, t) ∈ L.rest ∧ (tbl + 20 * i + 2372, 8) ∈ L.rest
  lt : tbl + 20 * (jumpTargets cases dflt).length < 2 ^ 32
  hid : j + 4 ∈ L.hid
  dat : L.P.data (j + 4)
  hm : ∀ v ∈ L.P.vars, j + 4 ≠ v + 328
  hr : ∀ r ∈ L.rest, r.1 ≠ j

/-- **C26 (jump table with actions).** If the selected value agrees with the labels on their common bits, the actions run once, and control
goes to the matching case or to the default.  Otherwise it goes to the default, *without* the actions. -/
theorem C26_jump_acts {L : Layout} (hw : L.Wf) {x : Nat} (hx : L.cell x) {mask : W} {acts : List PA} {cases : List (W × Nat)} (hne : cases ≠ [])
    (hm : ∀ c ∈ cases, c.1 &&& mask = c.1) {dflt e : Nat} (h : JumpCodeA L x mask acts cases dflt e) {s : Mem} (ha : ActsOk L acts s) (hsx : runPA acts s x = s x) :
    L.Runs s e (if s x &&& invMask cases mask = keyAnd cases then runPA acts s else s) (caseOf cases dflt (s x &&& mask)) := by
  have h1 : L.Runs s e s (if s x &&& invMask cases mask = keyAnd cases then h.r else dflt) := by
    have hi := h.inv
    by_cases hz : invMask cases mask ≠ 0
    · rw [if_pos hz] at hi
      have hb := C24_branch hw hi (s := s) (fun p hp => by simp only [List.mem_singleton] at hp; subst hp; exact cMemX_ok hx _ _ _ _) (fun _ => trivial)
      simp only [holdsAll_cons, holdsAll_nil, Bool.and_true, cMemX_holds, compare] at hb
      by_cases hk : s x &&& invMask cases mask = keyAnd cases
      · simpa [hk] using hb
      · simpa [hk] using hb
    · rw [if_neg hz] at hi
      have hz : invMask cases mask = 0 := Decidable.not_not.1 hz
      have hk : keyAnd cases = 0 := by
        apply BitVec.eq_of_getLsbD_eq
        intro j hj
        have := congrArg (fun w => w.getLsbD j) hz
        simp only [invMask, BitVec.getLsbD_and, BitVec.getLsbD_or, BitVec.getLsbD_not] at this
        cases ha : (keyAnd cases).getLsbD j with
        | false => simp
        | true =>
          obtain ⟨c, hc⟩ := List.exists_mem_of_ne_nil cases hne
          have hcj : c.1.getLsbD j = true := by rw [keyAnd_bit hne] at ha; exact List.all_eq_true.1 ha c hc
          have hmj : mask.getLsbD j = true := by
            rw [← hm c hc, BitVec.getLsbD_and] at hcj
            simp at hcj
            exact hcj.2
          rw [ha, hmj] at this
          simp at this
      rw [if_pos (by rw [hz, hk]; simp), ← hi]
      exact Layout.Runs.refl _ _ _
  refine h1.trans ?_
  by_cases hk : s x &&& invMask cases mask = keyAnd cases
  · rw [if_pos hk, if_pos hk]
    intro m hok hv
    have hpriv : L.priv (h.j + 4) := Or.inr (Or.inr (Or.inr h.hid))
    have ho := hok.set_hid h.dat h.hm (fun r hr e => h.hr r hr (by omega)) (BitVec.ofNat 32 h.tbl)
    have hv1 : L.view (m.set (h.j + 4) (BitVec.ofNat 32 h.tbl)) = s := by rw [Layout.view_priv hpriv, hv]
    obtain ⟨f1, f2⟩ := h.pl.spec (L := L) (s := s)
    have hbl := hok.prog.blks _ h.rb
    obtain ⟨g1, g2, g3⟩ := Layout.acts_run hw.cp (acts.map PA.a) (h.r + 328 + 32) _ ho (fun o ho' => by
      rw [Nat.add_assoc, Nat.add_assoc]
      exact hw.blk _ h.rb _ (by omega) (by have := hbl.al; simp only [List.length_cons] at this; omega)) (by rw [hv1]; exact f2 ha)
    rw [hv1, f1] at g3
    have hs := hok.prog.step_next h.rb rfl rfl trivial (fun _ => Prog.acts_next h.dat g1)
    simp only [SBlk.exec, condsS, if_true, runS, sNext_apply] at hs
    obtain ⟨m2, r2, o2, v2⟩ := h.bits.run hw hx h.hid h.dat h.hm h.hr (fun p hp => by
      simp only [bitPlaces, List.mem_filter, List.mem_range] at hp; exact hp.1) _ g2
    have hj : runS (acts.map PA.a) (h.r + 328 + 32) (m.set (h.j + 4) (BitVec.ofNat 32 h.tbl)) (h.j + 4) = BitVec.ofNat 32 h.tbl := by
      have : ∀ (as : List SAct) (y : Nat) (m : Mem), L.Ok m → (∀ o, o < 32 * as.length → ¬ L.priv (y + o)) → L.Acts as y (L.view m) → runS as y m (h.j + 4) = m (h.j + 4) := by
        intro as
        induction as with
        | nil => intros; rfl
        | cons a as ih =>
          intro y m hok hp hacts
          have e := SAct.res_view (m := m) a (by simpa using hp 0 (by simp)) (hp 16 (by simp; omega)) (hp 20 (by simp; omega))
          have hall := Layout.acts_run hw.cp [a] y m hok (fun o ho => hp o (by simp at ho ⊢; omega)) ⟨hacts.1, hacts.2.1, trivial⟩
          obtain ⟨a1, a2, a3⟩ := hacts
          rw [e] at a2 a3
          rw [Dst.addr_view hw.cp] at a2
          have hap : (a.res m y).apply (L.view m) = L.view ((a.res m y).apply m) := by
            unfold Act.apply
            rw [Dst.addr_view hw.cp, Layout.view_set a2.2, Layout.view_at a2.2]
          rw [hap] at a3
          simp only [runS]
          rw [ih (y + 32) ((a.res m y).apply m) hall.2.1 (fun o ho => by rw [Nat.add_assoc]; exact hp _ (by simp; omega)) a3]
          unfold Act.apply
          rw [set_ne]
          intro eq
          rw [← eq] at a2
          exact a2.2 hpriv
      rw [this _ _ _ ho (fun o ho' => by
        rw [Nat.add_assoc, Nat.add_assoc]
        exact hw.blk _ h.rb _ (by omega) (by have := hbl.al; simp only [List.length_cons] at this; omega)) (by rw [hv1]; exact f2 ha), set_eq]
    rw [g3] at r2 v2
    rw [hj, hsx, Nat.pow_zero, Nat.mul_one, ← BitVec.ofNat_add] at r2
    have hg := jumpTargets_get hne hm hk dflt
    have hlt := (List.getElem?_eq_some_iff.1 hg).1
    obtain ⟨t1, t2⟩ := h.tab _ _ hg
    have hl := h.lt
    rw [BitVec.toNat_ofNat, Nat.mod_eq_of_lt (by omega)] at r2
    have f8 := o2.rest _ t2
    have fn := o2.rest _ t1
    have hst : step ⟨m2, h.tbl + 20 * index (bitPlaces (keyXor cases)) (s x)⟩ = some ⟨m2, caseOf cases dflt (s x &&& mask)⟩ := by
      rw [step_disabled (by rw [show h.tbl + 20 * index (bitPlaces (keyXor cases)) (s x) + 2376 = h.tbl + 20 * index (bitPlaces (keyXor cases)) (s x) + 2372 + 4 by omega, f8]; rfl), fn,
        BitVec.toNat_ofNat, Nat.mod_eq_of_lt (hw.rlt _ t1)]
    exact ⟨m2, Reaches.head hs.1 (r2.trans (Reaches.step hst)), o2, v2⟩
  · rw [if_neg hk, if_neg hk]
    have hn := inv_none hm hk
    have : caseOf cases dflt (s x &&& mask) = dflt := by
      unfold caseOf
      rw [List.lookup_eq_none_iff.2 (fun p hp => by simpa using Ne.symm (hn p hp))]
      rfl
    rw [this]
    exact Layout.Runs.refl _ _ _

/-! ## As a statement, for the labels 0, 1, .. -/

/-- `EUDSwitch(v)` with actions, for a value that has a case. -/
def SwARel (L : Layout) (val : Mem → W) (acts : List PA) (cases : List (W × Stmt)) (s s' : Mem) : Prop :=
  ActsOk L acts s ∧ val (runPA acts s) = val s ∧ ∃ st, cases.lookup (val s) = some st ∧ Exec L st (runPA acts s) .brk s'

/-- The code: the dispatcher finds the case (C26), and the cases, which end at `b`, are in place. -/
theorem swA_code {L : Layout} (hw : L.Wf) {val : Mem → W} {acts : List PA} {cases : List (W × Nat × Stmt)} {e x d r k : Nat}
    (hsw : ∀ s c, ActsOk L acts s → val (runPA acts s) = val s → cases.lookup (val s) = some c →
      L.Runs s e (runPA acts s) (caseOf (cases.map fun c => (c.1, c.2.1)) d (val s)))
    (hb : ∀ c ∈ cases, ∃ n r' k', Code L r' x k' c.2.2 c.2.1 n) {b : Nat} :
    Code L r b k (.prim (SwARel L val acts (cases.map fun c => (c.1, c.2.2)))) e x := by
  refine .prim ?_
  rintro s s' ⟨h1, h2, st, h3, h4⟩
  rw [lookup_map Prod.snd] at h3
  cases hl : cases.lookup (val s) with
  | none => rw [hl] at h3; cases h3
  | some c =>
    rw [hl] at h3
    cases h3
    have := hsw s c h1 h2 hl
    unfold caseOf at this
    rw [lookup_map Prod.fst, hl] at this
    obtain ⟨n, r', k', hn⟩ := hb _ (lookup_mem' hl)
    exact this.trans (C25_structured hw h4 hn)

theorem Does.swA {L : Layout} {val : Mem → W} {acts : List PA} {cases : List (W × Stmt)} {s : Mem} {Q : Mem → Prop} (ha : ActsOk L acts s)
    (hv : val (runPA acts s) = val s) {st : Stmt} (hl : cases.lookup (val s) = some st) (h : Wp L st (runPA acts s) fun o s' => o = .brk ∧ Q s') :
    Does L (.prim (SwARel L val acts cases)) s Q := by
  obtain ⟨o, s', g1, rfl, g2⟩ := h
  exact Does.prim ⟨ha, hv, st, hl, g1⟩ g2

end Eud.SC
